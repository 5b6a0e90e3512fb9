import Verif.Spec.Sealed
import Verif.Props.C58

/-! Closed diagrams are complete. -/

namespace Pooya

set_option linter.unusedSectionVars false

variable {K : Type}

theorem mem_valueIds_iff {es : Entries} {i : SigId} : i ∈ C14.valueIds es ↔ ∃ k t, (k, Signal.val i t) ∈ es := by
  constructor
  · intro h
    simp only [C14.valueIds, List.mem_filterMap] at h
    obtain ⟨⟨k, s⟩, hm, e⟩ := h
    cases s with
    | bus _ _ => cases e
    | val j t => cases e; exact ⟨k, t, hm⟩
  · rintro ⟨k, t, h⟩
    exact C14.mem_valueIds h

theorem valueIds_one {es : Entries} (h : es.length = 1) {i j : SigId} (hi : i ∈ C14.valueIds es) (hj : j ∈ C14.valueIds es) : i = j := by
  obtain ⟨k, t, hi⟩ := mem_valueIds_iff.1 hi
  obtain ⟨k', t', hj⟩ := mem_valueIds_iff.1 hj
  obtain ⟨e, rfl⟩ := List.length_eq_one_iff.1 h
  rw [List.mem_singleton] at hi hj
  rw [← hi] at hj
  cases hj; rfl

theorem required_linkType {ibus obus : Entries} {i : SigId} (h : (C14.linkType ibus obus i).isRequired = true) : i ∈ C14.valueIds ibus := by
  by_cases h1 : i ∈ C14.valueIds ibus
  · exact h1
  · exfalso
    unfold C14.linkType at h
    rw [if_neg h1] at h
    split at h <;> exact absurd h (by decide)

theorem required_cleared {f : Flags} : (f &&& ~~~Flags.required).isRequired = false := by
  unfold Flags.isRequired
  rw [BitVec.and_assoc]
  have : ~~~Flags.required &&& Flags.required = 0#32 := by decide
  rw [this]; simp

theorem required_added {f g : Flags} (hg : g.isRequired = true) : (f ||| g).isRequired = true := by
  unfold Flags.isRequired at hg ⊢
  simp only [bne_iff_ne, ne_eq] at hg ⊢
  intro h
  apply hg
  have h2 : (f ||| g) &&& Flags.required &&& g = 0#32 := by rw [h]; simp
  ext i hi
  have h3 := congrArg (fun x => x.getLsbD i) h2
  simp only [BitVec.getLsbD_and, BitVec.getLsbD_or, BitVec.getLsbD_zero] at h3
  simp only [BitVec.getElem_and, BitVec.getElem_zero]
  simp only [BitVec.getLsbD_eq_getElem hi] at h3
  revert h3
  cases f[i] <;> cases g[i] <;> cases Flags.required[i] <;> simp

/-- The port numbers of a connected block. -/
theorem cls_ports {dbg : Bool} {c : Cls} {ibus obus : Entries} {st st' : CState} {b : Bound} (h : c.connect dbg ibus obus st = .ok b st') :
    (∀ n, (C14.ports c).1 = some n → ibus.length = n) ∧ ∀ n, (C14.ports c).2 = some n → obus.length = n := by
  refine ⟨fun n hn => ?_, fun n hn => ?_⟩ <;> (apply Decidable.by_contra; intro hc)
  · obtain ⟨e, he⟩ := C14.C14_class_throws dbg c ibus obus st (.inr (.inl ⟨n, hn, hc⟩))
    rw [h] at he; cases he
  · obtain ⟨e, he⟩ := C14.C14_class_throws dbg c ibus obus st (.inr (.inr ⟨n, hn, hc⟩))
    rw [h] at he; cases he

/-- What the class requires. -/
theorem cls_requires {dbg : Bool} {c : Cls} {ibus obus : Entries} (hc : dbg = true ∨ ∀ ty, c = .fold ty → ∀ q ∈ ibus, ∃ i n, q.2 = .val i (ty.toTy n))
    {d : Derivs} {b : Bound} {st : CState} (h : c.connect dbg ibus obus ⟨{}, d⟩ = .ok b st) {s : SigId} {f : Flags} (hs : (s, f) ∈ st.c.links)
    (hr : f.isRequired = true) :
    match c with
    | .memory _ => False
    | .integrator _ => b.out = some s
    | .trigInt _ => b.out = some s ∨ ∃ k, (k, Signal.val s .bool) ∈ ibus
    | _ => s ∈ C14.valueIds ibus := by
  have hl := C14.C14_class_links dbg c ibus obus d b st h
  rw [hl] at hs
  obtain ⟨hm, rfl⟩ := ((C14.C14_once ibus obus _).2 s f).1 hs
  obtain ⟨q1, q2⟩ := cls_types hc h
  have hp := (cls_ports h).1
  have dv := cls_derivs h
  obtain ⟨ins, out⟩ := b
  have hv : ∀ ty : VTy, ty.handle ≠ .bus := fun ty => by cases ty <;> simp [VTy.handle]
  cases c with
  | memory ty =>
    match ins, q1 with
    | [x], q1 =>
      have hx := usable_val (hv _) q1.1
      simp only [C14.clsType] at hr
      by_cases e : s = x
      · rw [if_pos e, required_cleared] at hr; cases hr
      · rw [if_neg e] at hr
        exact e (valueIds_one (hp 1 rfl) (required_linkType hr) hx)
  | integrator ty =>
    obtain ⟨x, o, e, j⟩ := dv
    cases e
    have hx := usable_val (hv _) q1.1
    show some o = some s
    simp only [C14.clsType] at hr
    by_cases eo : s = o
    · rw [eo]
    · rw [if_neg eo] at hr
      by_cases e : s = x
      · rw [if_pos e, required_cleared] at hr; cases hr
      · rw [if_neg e] at hr
        exact (e (valueIds_one (hp 1 rfl) (required_linkType hr) hx)).elim
  | trigInt ty =>
    obtain ⟨x, tr, o, e, j⟩ := dv
    cases e
    show some o = some s ∨ _
    obtain ⟨⟨k1, s1⟩, m1, rfl, t1⟩ := q1.2.1
    cases t1 with
    | bool tr =>
    by_cases et : s = tr
    · exact .inr ⟨k1, by rw [et]; exact m1⟩
    · by_cases eo : s = o
      · exact .inl (by rw [eo])
      · simp only [C14.clsType] at hr
        rw [if_neg (show ¬ s = Signal.id (Signal.val tr .bool) from et), if_neg eo] at hr
        by_cases e : s = x
        · rw [if_pos e, required_cleared] at hr; cases hr
        · rw [if_neg e] at hr
          exfalso
          obtain ⟨k, t, m0⟩ := mem_valueIds_iff.1 (required_linkType hr)
          obtain ⟨t', _, k', _, m2, hf⟩ := j.types
          have h3 : (ibus.length = 2) := hp 2 rfl
          match ibus, h3 with
          | [a, b], _ =>
            simp only [List.mem_cons, List.not_mem_nil, or_false] at m0 m1 m2
            have hd : ∀ c, (k1, Signal.val tr .bool) = c → (k', Signal.val x t') = c → False := by
              rintro c rfl h
              cases h; exact hf
            have h1 : ∀ c, (k1, Signal.val tr .bool) = c → (k, Signal.val s t) = c → False := by
              rintro c rfl h
              cases h; exact et rfl
            have h2 : ∀ c, (k', Signal.val x t') = c → (k, Signal.val s t) = c → False := by
              rintro c rfl h
              cases h; exact e rfl
            rcases m1 with m1 | m1 <;> rcases m2 with m2 | m2 <;> rcases m0 with m0 | m0 <;>
              first | exact hd _ m1 m2 | exact h1 _ m1 m0 | exact h2 _ m2 m0
  | _ => exact required_linkType hr

/-- How a connected block corresponds to the object and its buses. -/
structure Fitted (ty : SigId → Ty) (p : Wire K) (l : Leaf K) : Prop where
  id : l.id = p.id
  linked : l.Linked
  sane : l.Sane ty
  requires : ∀ s, l.Requires s → p.Needs s ∨ l.state = some s
  outs : ∀ s ∈ l.outs, p.Gives s
  gives : ∀ s, p.Gives s → (p.obj.isState = false ∧ s ∈ l.outs) ∨ (p.obj.isState = true ∧ l.state = some s)
  state : ∀ s, l.state = some s → p.Gives s ∧ p.obj.isState = true
  owns : p.obj.isState = true → ∃ s, l.state = some s
  pre : ∀ s ∈ l.preOuts, l.state = some s
  apart : l.outs = [] ∨ l.state = none
  post : ∀ s ∈ l.postReads, p.Takes s ∨ l.state = some s
  slope : ∀ s x, l.Slope s x → p.Takes x
  links : ∀ s, p.Takes s ∨ p.Gives s → ∃ f, (s, f) ∈ l.links
  plain : ¬ l.kind matches .builder
  code : ∀ c, l.kind ≠ .custom c

/-- A block of a class that only gets signals. -/
theorem static_sane {ty : SigId → Ty} {p : Wire K} {n : Nat} (hs : p.obj.Static strict n) (ha : p.obj.Answers n)
    (hi : Agrees ty p.ibus ∧ Sized n p.ibus) (ho : Agrees ty p.obus ∧ Sized n p.obus) {d d' : Derivs} {l : Leaf K}
    (h : p.connect true d = .ok (l, d')) (hc : p.Checked true) : l.Sane ty := by
  have ht := C58_typed strict true p hc n hs ty hi ho d d' l h
  have hcu : ∀ a b c e f, p.obj ≠ .custom a b c e f := fun a b c e f he => by rw [he] at hs; exact hs
  obtain ⟨b, st, h1, h2, -, -, -⟩ := C58.inv hcu h
  have hfold : true = true ∨ ∀ ty, p.obj.cls = .fold ty → ∀ q ∈ p.ibus, ∃ i n, q.2 = .val i (ty.toTy n) := .inl rfl
  obtain ⟨q1, q2⟩ := cls_types hfold h1
  obtain ⟨id, links, kind⟩ := l
  obtain ⟨ins, out⟩ := b
  obtain ⟨pid, obj, ibus, obus⟩ := p
  simp only at *
  have ui : ∀ {v : VTy} {i : SigId}, C10.Usable ibus v.handle i → ty i = v.toTy n := C58.usable_ty hi.1 hi.2
  cases obj with
  | sources _ _ _ => exact hs.elim
  | so _ _ _ _ => exact hs.elim
  | func _ _ _ _ _ => exact hs.elim
  | custom _ _ _ _ _ => exact hs.elim
  | source v f =>
    rcases ins with _ | ⟨x, xs⟩ <;> rcases out with _ | o <;> simp only [Make.kind, reduceCtorEq, Except.ok.injEq] at h2
    subst h2
    refine ⟨ht, ha, trivial, fun t e => ?_, by simp [Leaf.outs, Kind.outs]⟩
    obtain ⟨v, hv⟩ := ha t
    rw [hv] at e; cases e
  | siso v f =>
    rcases ins with _ | ⟨x, _ | ⟨y, xs⟩⟩ <;> rcases out with _ | o <;> simp only [Make.kind, reduceCtorEq, Except.ok.injEq] at h2
    subst h2
    refine ⟨ht, fun t a hf => ?_, trivial, ha.2, by simp [Leaf.outs, Kind.outs]⟩
    rw [ui q1.1] at hf
    exact ha.1 t a hf
  | _ =>
    rcases ins with _ | ⟨x, _ | ⟨y, _ | ⟨z, _ | ⟨z', zs⟩⟩⟩⟩ <;> rcases out with _ | o <;>
      simp only [Make.kind, reduceCtorEq, Except.ok.injEq] at h2 <;> subst h2 <;>
      exact ⟨ht, trivial, trivial, trivial, by simp [Leaf.outs, Kind.outs]⟩

theorem wire_fitted {ty : SigId → Ty} {p : Wire K} (hs : p.Sane ty) {d d' : Derivs} {l : Leaf K} (h : p.connect true d = .ok (l, d')) : Fitted ty p l := by
  obtain ⟨ai, ao, hs⟩ := hs
  have hc : p.Checked true := by
    unfold Wire.Checked
    split <;> first | exact .inl rfl | trivial
  have hcu : ∀ a b c e f, p.obj ≠ .custom a b c e f := fun a b c e f he => by
    rcases hs with ⟨n, _, hs, _⟩ | ⟨hs, _⟩ <;> rw [he] at hs <;> exact hs
  have hd : p.obj.Direct := by
    rcases hs with ⟨n, _, hs, _⟩ | ⟨_, hs, _⟩
    · revert hs
      cases p.obj <;> first | exact fun _ => trivial | exact fun h => h.elim
    · exact hs
  have hsane : l.Sane ty := by
    rcases hs with ⟨n, _, hs, ha, s1, s2⟩ | ⟨_, _, hs⟩
    · exact static_sane hs ha ⟨ai, s1⟩ ⟨ao, s2⟩ h hc
    · exact (hs d d' l h).1
  have hall : p.obj.OnBuses → ∀ i, p.Gives i → i ∈ l.outs := fun hb => by
    rcases hs with ⟨n, _, hs, _⟩ | ⟨_, _, hs⟩
    · revert hs hb
      cases p.obj <;> first | exact fun h _ => h.elim | exact fun _ h => h.elim
    · exact (hs d d' l h).2
  obtain ⟨hid, hlk, hj⟩ := C58_leaf true p hd hc d d' l h
  obtain ⟨b, st, h1, h2, -, h4, -⟩ := C58.inv hcu h
  have hfold : true = true ∨ ∀ ty, p.obj.cls = .fold ty → ∀ q ∈ p.ibus, ∃ i n, q.2 = .val i (ty.toTy n) := .inl rfl
  have hm := cls_made hfold h1
  have hreq := fun s f hs hr => cls_requires hfold h1 (s := s) (f := f) hs hr
  have hpo := (cls_ports h1).2
  have dv := cls_derivs h1
  obtain ⟨q1, q2⟩ := cls_types hfold h1
  have hins := pointwise_vals q1 (bus_not_in _ _)
  have hv : ∀ ty : VTy, ty.handle ≠ .bus := fun ty => by cases ty <;> simp [VTy.handle]
  have hout : ∀ o, b.out = some o → o ∈ C14.valueIds p.obus := by
    intro o e
    rw [e] at q2
    generalize p.obj.cls = c at q2
    cases c <;> simp only [C10.outType] at q2 <;> first | exact usable_val (hv _) q2 | exact q2.elim
  have hlinks : ∀ s, p.Takes s ∨ p.Gives s → ∃ f, (s, f) ∈ l.links := by
    intro s hs
    rw [h4]
    rcases hs with hs | hs
    · obtain ⟨f, hf, _⟩ := hm.inVals s (mem_valueIds_iff.2 hs)
      exact ⟨f, hf⟩
    · obtain ⟨f, hf, _⟩ := hm.outVals s (mem_valueIds_iff.2 hs)
      exact ⟨f, hf⟩
  have hreq' : ∀ s, l.Requires s → ∃ f, (s, f) ∈ st.c.links ∧ f.isRequired = true := fun s ⟨f, hf, hr⟩ => ⟨f, h4 ▸ hf, hr⟩
  obtain ⟨id, links, kind⟩ := l
  obtain ⟨ins, out⟩ := b
  obtain ⟨pid, obj, ibus, obus⟩ := p
  simp only at *
  have ti : ∀ i, i ∈ ins → (⟨pid, obj, ibus, obus⟩ : Wire K).Takes i := fun i hi => mem_valueIds_iff.1 (hins i hi)
  have go : ∀ o, out = some o → (⟨pid, obj, ibus, obus⟩ : Wire K).Gives o := fun o e => mem_valueIds_iff.1 (hout o e)
  have og : (C14.ports obj.cls).2 = some 1 → ∀ o s, out = some o → (⟨pid, obj, ibus, obus⟩ : Wire K).Gives s → s = o := fun e o s eo hs =>
    valueIds_one (hpo 1 e) (mem_valueIds_iff.2 hs) (hout o eo)
  have tn : ∀ s, s ∈ C14.valueIds ibus → (⟨pid, obj, ibus, obus⟩ : Wire K).Takes s := fun s hs => mem_valueIds_iff.1 hs
  cases obj with
  | custom a b c e f => exact (hcu a b c e f rfl).elim
  | sources nO f os =>
    rcases ins with _ | ⟨x, xs⟩ <;> rcases out with _ | o <;> simp only [Make.kind, reduceCtorEq] at h2
    cases hr : lookupVals obus os with
    | error e => rw [hr] at h2; cases h2
    | ok is =>
      rw [hr] at h2; cases h2
      exact {
        id := hid, linked := hlk, sane := hsane, links := hlinks
        requires := fun s hs => by obtain ⟨f, hf, hr⟩ := hreq' s hs; exact .inl (tn s (hreq s f hf hr))
        outs := fun s hs => mem_valueIds_iff.1 (C58.lookupVals_mem hd hr s hs)
        gives := fun s hs => .inl ⟨rfl, hall trivial s hs⟩
        state := fun s e => by cases e
        owns := fun e => by cases e
        pre := fun s e => by cases e
        apart := .inr rfl
        post := fun s e => by cases e
        slope := fun s x hs => (C58.state_none rfl s x hs).elim
        plain := fun h => by cases h
        code := fun c h => by cases h }
  | so ty nI f rs =>
    rcases ins with _ | ⟨x, xs⟩ <;> rcases out with _ | o <;> simp only [Make.kind, reduceCtorEq] at h2
    cases hr : lookupVals ibus rs with
    | error e => rw [hr] at h2; cases h2
    | ok is =>
      rw [hr] at h2; cases h2
      exact {
        id := hid, linked := hlk, sane := hsane, links := hlinks
        requires := fun s hs => by obtain ⟨f, hf, hr⟩ := hreq' s hs; exact .inl (tn s (hreq s f hf hr))
        outs := fun s hs => by
          simp only [Leaf.outs, Kind.outs, List.mem_singleton] at hs
          rw [hs]; exact go o rfl
        gives := fun s hs => .inl ⟨rfl, hall trivial s hs⟩
        state := fun s e => by cases e
        owns := fun e => by cases e
        pre := fun s e => by cases e
        apart := .inr rfl
        post := fun s e => by cases e
        slope := fun s x hs => (C58.state_none rfl s x hs).elim
        plain := fun h => by cases h
        code := fun c h => by cases h }
  | func nI nO f rs os =>
    rcases ins with _ | ⟨x, xs⟩ <;> rcases out with _ | o <;> simp only [Make.kind, reduceCtorEq] at h2
    cases hr : lookupVals ibus rs with
    | error e => rw [hr] at h2; cases h2
    | ok is =>
      cases hw : lookupVals obus os with
      | error e => rw [hr, hw] at h2; cases h2
      | ok o =>
        rw [hr, hw] at h2; cases h2
        exact {
          id := hid, linked := hlk, sane := hsane, links := hlinks
          requires := fun s hs => by obtain ⟨f, hf, hr⟩ := hreq' s hs; exact .inl (tn s (hreq s f hf hr))
          outs := fun s hs => mem_valueIds_iff.1 (C58.lookupVals_mem hd.2 hw s hs)
          gives := fun s hs => .inl ⟨rfl, hall trivial s hs⟩
          state := fun s e => by cases e
          owns := fun e => by cases e
          pre := fun s e => by cases e
          apart := .inr rfl
          post := fun s e => by cases e
          slope := fun s x hs => (C58.state_none rfl s x hs).elim
          plain := fun h => by cases h
          code := fun c h => by cases h }
  | memory ty =>
    rcases ins with _ | ⟨x, _ | ⟨y, xs⟩⟩ <;> rcases out with _ | o <;> simp only [Make.kind, reduceCtorEq, Except.ok.injEq] at h2
    subst h2
    exact {
      id := hid, linked := hlk, sane := hsane, links := hlinks
      requires := fun s hs => by obtain ⟨f, hf, hr⟩ := hreq' s hs; exact (hreq s f hf hr).elim
      outs := fun s hs => by
        simp only [Leaf.outs, Kind.outs, List.mem_singleton] at hs
        rw [hs]; exact go o rfl
      gives := fun s hs => .inl ⟨rfl, by rw [og rfl o s rfl hs]; exact List.mem_singleton.2 rfl⟩
      state := fun s e => by cases e
      owns := fun e => by cases e
      pre := fun s e => by cases e
      apart := .inr rfl
      post := fun s e => by
        simp only [Leaf.postReads, Kind.postReads, List.mem_singleton] at e
        rw [e]; exact .inl (ti x (by simp))
      slope := fun s x hs => (C58.state_none rfl s x hs).elim
      plain := fun h => by cases h
      code := fun c h => by cases h }
  | integrator ty =>
    rcases ins with _ | ⟨x, _ | ⟨y, xs⟩⟩ <;> rcases out with _ | o <;> simp only [Make.kind, reduceCtorEq, Except.ok.injEq] at h2
    subst h2
    exact {
      id := hid, linked := hlk, sane := hsane, links := hlinks
      requires := fun s hs => by obtain ⟨f, hf, hr⟩ := hreq' s hs; exact .inr (hreq s f hf hr)
      outs := fun s hs => by cases hs
      gives := fun s hs => .inr ⟨rfl, by rw [og rfl o s rfl hs]; rfl⟩
      state := fun s e => by cases e; exact ⟨go _ rfl, rfl⟩
      owns := fun _ => ⟨_, rfl⟩
      pre := fun s e => by
        simp only [Leaf.preOuts, Kind.preOuts, List.mem_singleton] at e
        rw [e]; rfl
      apart := .inl rfl
      post := fun s e => by
        simp only [Leaf.postReads, Kind.postReads, List.mem_singleton] at e
        rw [e]; exact .inr rfl
      slope := fun s x' hs => by
        rcases hs with e | ⟨tr, e⟩ <;> cases e
        exact ti x (by simp)
      plain := fun h => by cases h
      code := fun c h => by cases h }
  | trigInt ty =>
    rcases ins with _ | ⟨x, _ | ⟨y, _ | ⟨z, xs⟩⟩⟩ <;> rcases out with _ | o <;> simp only [Make.kind, reduceCtorEq, Except.ok.injEq] at h2
    subst h2
    exact {
      id := hid, linked := hlk, sane := hsane, links := hlinks
      requires := fun s hs => by obtain ⟨f, hf, hr⟩ := hreq' s hs; exact (hreq s f hf hr).symm
      outs := fun s hs => by cases hs
      gives := fun s hs => .inr ⟨rfl, by rw [og rfl o s rfl hs]; rfl⟩
      state := fun s e => by cases e; exact ⟨go _ rfl, rfl⟩
      owns := fun _ => ⟨_, rfl⟩
      pre := fun s e => by
        simp only [Leaf.preOuts, Kind.preOuts, List.mem_singleton] at e
        rw [e]; rfl
      apart := .inl rfl
      post := fun s e => by
        simp only [Leaf.postReads, Kind.postReads, List.mem_singleton] at e
        rw [e]; exact .inr rfl
      slope := fun s x' hs => by
        rcases hs with e | ⟨tr, e⟩ <;> cases e
        exact ti x (by simp)
      plain := fun h => by cases h
      code := fun c h => by cases h }
  | _ =>
    rcases ins with _ | ⟨x, _ | ⟨y, _ | ⟨z, _ | ⟨z', zs⟩⟩⟩⟩ <;> rcases out with _ | o <;>
      simp only [Make.kind, reduceCtorEq, Except.ok.injEq] at h2 <;> subst h2 <;>
      exact {
        id := hid, linked := hlk, sane := hsane, links := hlinks
        requires := fun s hs => by obtain ⟨f, hf, hr⟩ := hreq' s hs; exact .inl (tn s (hreq s f hf hr))
        outs := fun s hs => by
          simp only [Leaf.outs, Kind.outs, List.mem_singleton] at hs
          rw [hs]; exact go o rfl
        gives := fun s hs => .inl ⟨rfl, by rw [og rfl o s rfl hs]; exact List.mem_singleton.2 rfl⟩
        state := fun s e => by cases e
        owns := fun e => by cases e
        pre := fun s e => by cases e
        apart := .inr rfl
        post := fun s e => by
          first
          | (cases e; done)
          | (simp only [Leaf.postReads, Kind.postReads, List.mem_singleton] at e
             rw [e]; exact .inl (ti x (by simp)))
        slope := fun s x hs => (C58.state_none rfl s x hs).elim
        plain := fun h => by cases h
        code := fun c h => by cases h }

end Pooya
