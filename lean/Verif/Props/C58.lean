import Verif.Proof.Build
import Verif.Spec.Integ
import Verif.Props.C57
import Verif.Proof.Bus
import Verif.Props.C03

/-! C58: diagrams assembled by calls of `connect`. -/

namespace Pooya

set_option linter.unusedSectionVars false

variable {K : Type}

namespace C58

theorem direct_top {k : Key} (h : k.Direct) : C14.Top k := by
  cases k with
  | idx i => exact C14.top_idx i
  | label l =>
    refine C14.top_label l ?_
    have h : 46 ∉ l := h
    clear * - h
    induction l with
    | nil => rfl
    | cons c cs ih =>
      have hc : c ≠ 46 := fun e => h (by simp [e])
      simp only [splitDot, if_neg hc]
      exact ih (fun hm => h (by simp [hm]))

theorem lookupVals_mem {es : Entries} {ks : List Key} (hd : ∀ k ∈ ks, k.Direct) {is : List SigId} (h : lookupVals es ks = .ok is) :
    ∀ i ∈ is, i ∈ C14.valueIds es := by
  induction ks generalizing is with
  | nil => cases h; intro i hi; cases hi
  | cons k ks ih =>
    unfold lookupVals at h
    cases h1 : lookupVal es k with
    | error e => rw [h1] at h; cases h
    | ok i =>
      rw [h1] at h
      cases h2 : lookupVals es ks with
      | error e => rw [h2] at h; cases h
      | ok js =>
        rw [h2] at h; cases h
        intro j hj
        rcases List.mem_cons.1 hj with e | hj
        · rw [e]
          unfold lookupVal at h1
          cases h3 : k.at es with
          | error e => rw [h3] at h1; cases h1
          | ok s =>
            rw [h3] at h1
            cases s with
            | bus _ _ => cases h1
            | val a ty => cases h1; exact direct_top (hd k (by simp)) es _ ty h3
        · exact ih (fun k hk => hd k (by simp [hk])) h2 j hj

/-- The links after `input(key)` and `output(key)` in user code. -/
theorem inputAt_links {k : Key} {st st' : CState} {i : SigId} {ty : Ty} (h : inputAt k st = .ok (.val i ty) st') :
    st'.c.links = linkSignal st.c.links (.val i ty) (Flags.input ||| Flags.required) := by
  simp only [inputAt, bind_ok, get_apply] at h
  obtain ⟨_, _, h1, s1, _, h2, _, _, h3, h4⟩ := h
  simp at h1; obtain ⟨rfl, rfl⟩ := h1
  rw [liftE_eq_ok] at h2; obtain ⟨h2, rfl⟩ := h2
  simp at h3 h4; obtain ⟨rfl, rfl⟩ := h4; subst h3
  rfl

theorem outputAt_links {k : Key} {st st' : CState} {i : SigId} {ty : Ty} (h : outputAt k st = .ok (.val i ty) st') :
    st'.c.links = linkSignal st.c.links (.val i ty) Flags.output := by
  simp only [outputAt, bind_ok, get_apply] at h
  obtain ⟨_, _, h1, s1, _, h2, _, _, h3, h4⟩ := h
  simp at h1; obtain ⟨rfl, rfl⟩ := h1
  rw [liftE_eq_ok] at h2; obtain ⟨h2, rfl⟩ := h2
  simp at h3 h4; obtain ⟨rfl, rfl⟩ := h4; subst h3
  rfl

theorem inputsAt_links {ks : List Key} {st st' : CState} {is : List SigId} (hn : (st.c.links.map Prod.fst).Nodup) (h : inputsAt ks st = .ok is st') :
    (st'.c.links.map Prod.fst).Nodup ∧ (∀ i ∈ is, Linkage st'.c.links i (Flags.input ||| Flags.required)) ∧
      (∀ s t, Linkage st.c.links s t → Linkage st'.c.links s t) ∧ st'.d = st.d := by
  induction ks generalizing st is with
  | nil => cases h; exact ⟨hn, (fun i hi => by cases hi), fun _ _ h => h, rfl⟩
  | cons k ks ih =>
    simp only [inputsAt, bind_ok] at h
    obtain ⟨s, s1, h1, h2⟩ := h
    cases s with
    | bus _ _ => cases h2
    | val i ty =>
      simp only [bind_ok] at h2
      obtain ⟨js, s2, h2, h3⟩ := h2
      cases h3
      have f := linkSignal_facts st.c.links i ty (Flags.input ||| Flags.required) hn
      rw [← inputAt_links h1] at f
      obtain ⟨g1, g2, g3, g4⟩ := ih f.1 h2
      refine ⟨g1, ?_, fun s t hs => g3 s t (f.2.2 s t hs), g4.trans (inputAt_d h1)⟩
      intro j hj
      rcases List.mem_cons.1 hj with e | hj
      · rw [e]; exact g3 _ _ f.2.1
      · exact g2 j hj

theorem outputsAt_links {ks : List Key} {st st' : CState} {is : List SigId} (hn : (st.c.links.map Prod.fst).Nodup) (h : outputsAt ks st = .ok is st') :
    (st'.c.links.map Prod.fst).Nodup ∧ (∀ i ∈ is, Linkage st'.c.links i Flags.output) ∧
      (∀ s t, Linkage st.c.links s t → Linkage st'.c.links s t) ∧ st'.d = st.d := by
  induction ks generalizing st is with
  | nil => cases h; exact ⟨hn, (fun i hi => by cases hi), fun _ _ h => h, rfl⟩
  | cons k ks ih =>
    simp only [outputsAt, bind_ok] at h
    obtain ⟨s, s1, h1, h2⟩ := h
    cases s with
    | bus _ _ => cases h2
    | val i ty =>
      simp only [bind_ok] at h2
      obtain ⟨js, s2, h2, h3⟩ := h2
      cases h3
      have f := linkSignal_facts st.c.links i ty Flags.output hn
      rw [← outputAt_links h1] at f
      obtain ⟨g1, g2, g3, g4⟩ := ih f.1 h2
      refine ⟨g1, ?_, fun s t hs => g3 s t (f.2.2 s t hs), g4.trans (outputAt_d h1)⟩
      intro j hj
      rcases List.mem_cons.1 hj with e | hj
      · rw [e]; exact g3 _ _ f.2.1
      · exact g2 j hj

/-- What a call of `connect` does to the derivative links. -/
structure Joins (p : Wire K) (l : Leaf K) (d d' : Derivs) : Prop where
  slope : ∀ o x, l.Slope o x → Joined p.ibus p.obus d d' x o
  other : l.state = none → d' = d

theorem state_none {l : Leaf K} (h : l.state = none) (o x : SigId) : ¬ l.Slope o x := by
  unfold Leaf.state at h
  rintro (e | ⟨tr, e⟩) <;> rw [e] at h <;> cases h

theorem joins_none {p : Wire K} {l : Leaf K} {d d' : Derivs} (h : l.state = none) (e : d' = d) : Joins p l d d' :=
  ⟨fun o x hs => (state_none h o x hs).elim, fun _ => e⟩

/-- The call of `connect` on a new object that is not user-written. -/
theorem inv {dbg : Bool} {p : Wire K} (hc : ∀ a b c e f, p.obj ≠ .custom a b c e f) {d d' : Derivs} {l : Leaf K} (h : p.connect dbg d = .ok (l, d')) :
    ∃ b st, p.obj.cls.connect dbg p.ibus p.obus ⟨{}, d⟩ = .ok b st ∧ p.obj.kind p.ibus p.obus b = .ok l.kind ∧ l.id = p.id ∧
      l.links = st.c.links ∧ d' = st.d := by
  unfold Wire.connect at h
  cases hx : p.obj.connect dbg p.ibus p.obus ⟨{}, d⟩ with
  | error e s => rw [hx] at h; cases h
  | ok k st =>
    rw [hx] at h; cases h
    simp only [Make.connect, bind_ok] at hx
    obtain ⟨b, s1, h1, h2⟩ := hx
    have h3 : (liftE (p.obj.kind p.ibus p.obus b) : CM _) s1 = .ok k st := by
      cases hm : p.obj with
      | custom a b c e f => exact (hc _ _ _ _ _ hm).elim
      | _ => rw [hm] at h2; exact h2
    obtain ⟨h4, rfl⟩ := (liftE_eq_ok _ _ _ _).1 h3
    exact ⟨b, s1, h1, h4, rfl, rfl, rfl⟩

theorem linked_of {l : Leaf K} {c : Cls} {ibus obus : Entries} {b : Bound} {ls : List (SigId × Flags)} (hm : c.Made ibus obus b ls) (e : l.links = ls)
    (h1 : ∀ s ∈ l.kind.reads, s ∈ c.waits b) (h2 : ∀ s ∈ l.kind.outs ++ l.kind.preOuts, b.out = some s)
    (h3 : ∀ s ∈ l.kind.postReads, s ∈ b.ins ∨ b.out = some s) : l.Linked := by
  subst e
  refine ⟨fun s hs => hm.waits s (h1 s hs), fun s hs => hm.out s (h2 s hs), fun s hs => ?_, hm.once⟩
  rcases h3 s hs with h | h
  · exact .inl (hm.ins s h)
  · exact .inr (hm.out s h)

end C58

/-- A block is linked to the signals it uses, once `connect` has returned: to those it reads as required inputs, to those it assigns as outputs.
For an integrator, `connect` has linked its input as the derivative of its output; other blocks do not change derivative links. -/
theorem C58_leaf (dbg : Bool) (p : Wire K) (hd : p.obj.Direct) (hc : p.Checked dbg) (d d' : Derivs) (l : Leaf K)
    (h : p.connect dbg d = .ok (l, d')) : l.id = p.id ∧ l.Linked ∧ C58.Joins p l d d' := by
  have hfold : dbg = true ∨ ∀ ty, p.obj.cls = .fold ty → ∀ q ∈ p.ibus, ∃ i n, q.2 = .val i (ty.toTy n) := by
    unfold Wire.Checked at hc
    cases hm : p.obj with
    | add ty v => rw [hm] at hc; exact hc.imp id (fun h ty e => by cases e; exact h)
    | multiply ty v => rw [hm] at hc; exact hc.imp id (fun h ty e => by cases e; exact h)
    | _ => right; intro ty e; cases e
  by_cases hcu : ∃ a b c e f, p.obj = .custom a b c e f
  · obtain ⟨nI, nO, ins, outs, c, hm⟩ := hcu
    rw [hm] at hd hfold
    unfold Wire.connect at h
    cases hx : p.obj.connect dbg p.ibus p.obus ⟨{}, d⟩ with
    | error e s => rw [hx] at h; cases h
    | ok k st =>
      rw [hx] at h; cases h
      rw [hm] at hx
      simp only [Make.connect, bind_ok] at hx
      obtain ⟨b, s1, h1, is, s2, h2, os, s3, h3, h4⟩ := hx
      cases h4
      have m := cls_made hfold h1
      obtain ⟨g1, g2, g3, g4⟩ := C58.inputsAt_links m.once h2
      obtain ⟨k1, k2, k3, k4⟩ := C58.outputsAt_links g1 h3
      obtain ⟨u1, u2, u3⟩ := hd is os
      refine ⟨rfl, ⟨fun s hs => k3 _ _ (g2 s (u1 s hs)), fun s hs => k2 s (u2 s hs), fun s hs => ?_, k1⟩, C58.joins_none rfl ?_⟩
      · rcases List.mem_append.1 (u3 s hs) with hs | hs
        · obtain ⟨f, hf, hb⟩ := k3 _ _ (g2 s hs)
          exact .inl ⟨f, hf, and_input hb⟩
        · exact .inr (k2 s hs)
      · show st.d = d
        rw [k4, g4]; exact cls_derivs h1
  · have hcu : ∀ a b c e f, p.obj ≠ .custom a b c e f := fun a b c e f he => hcu ⟨a, b, c, e, f, he⟩
    obtain ⟨b, st, h1, h2, h3, h4, h5⟩ := C58.inv hcu h
    have m := cls_made hfold h1
    have dv := cls_derivs h1
    refine ⟨h3, ?_⟩
    obtain ⟨id, links, kind⟩ := l
    obtain ⟨ins, out⟩ := b
    simp only at h2 h3 h4 h5
    subst h4 h5
    obtain ⟨pid, obj, ibus, obus⟩ := p
    simp only at *
    have hk : ∀ {l : Leaf K}, l.links = st.c.links → l.state = none → obj.cls.Derived ibus obus ⟨ins, out⟩ d st.d → (∀ ty, obj.cls ≠ .integrator ty) →
        (∀ ty, obj.cls ≠ .trigInt ty) → (∀ s ∈ l.kind.reads, s ∈ obj.cls.waits ⟨ins, out⟩) → (∀ s ∈ l.kind.outs ++ l.kind.preOuts, out = some s) →
        (∀ s ∈ l.kind.postReads, s ∈ ins ∨ out = some s) → l.Linked ∧ C58.Joins ⟨pid, obj, ibus, obus⟩ l d st.d := by
      intro l e0 e1 e2 e3 e4 e5 e6 e7
      refine ⟨C58.linked_of m e0 e5 e6 e7, C58.joins_none e1 ?_⟩
      revert e2 e3 e4
      cases obj.cls <;> intro e2 e3 e4 <;> first | exact e2 | exact (e3 _ rfl).elim | exact (e4 _ rfl).elim
    cases obj with
    | custom a b c e f => exact (hcu a b c e f rfl).elim
    | integrator ty =>
      obtain ⟨x, o, e, j⟩ := dv
      cases e
      cases h2
      refine ⟨C58.linked_of m rfl (by simp [Kind.reads]) (by simp [Kind.outs, Kind.preOuts]) (by simp [Kind.postReads]), ?_, fun e => by cases e⟩
      rintro o' x' (e | ⟨tr, e⟩) <;> cases e
      exact j
    | trigInt ty =>
      obtain ⟨x, tr, o, e, j⟩ := dv
      cases e
      cases h2
      refine ⟨C58.linked_of m rfl (by simp [Kind.reads, Make.cls, Cls.waits]) (by simp [Kind.outs, Kind.preOuts]) (by simp [Kind.postReads]), ?_,
        fun e => by cases e⟩
      rintro o' x' (e | ⟨tr, e⟩) <;> cases e
      exact j
    | so ty nIn f rs =>
      rcases ins with _ | ⟨x, xs⟩ <;> rcases out with _ | o <;> simp only [Make.kind, reduceCtorEq] at h2
      cases hr : lookupVals ibus rs with
      | error e => rw [hr] at h2; cases h2
      | ok is =>
        rw [hr] at h2; cases h2
        refine ⟨⟨fun s hs => m.all (.inl ⟨_, _, rfl⟩) s (C58.lookupVals_mem hd hr s hs), ?_, (fun s hs => by cases hs), m.once⟩, C58.joins_none rfl dv⟩
        intro s hs
        refine m.out s ?_
        simp only [Leaf.outs, Leaf.preOuts, Kind.outs, Kind.preOuts, List.append_nil, List.mem_singleton] at hs
        rw [hs]
    | sources nO f os =>
      rcases ins with _ | ⟨x, xs⟩ <;> rcases out with _ | o <;> simp only [Make.kind, reduceCtorEq] at h2
      cases hr : lookupVals obus os with
      | error e => rw [hr] at h2; cases h2
      | ok is =>
        rw [hr] at h2; cases h2
        refine ⟨⟨(fun s hs => by cases hs), ?_, (fun s hs => by cases hs), m.once⟩, C58.joins_none rfl dv⟩
        intro s hs
        simp only [Leaf.outs, Leaf.preOuts, Kind.outs, Kind.preOuts, List.append_nil] at hs
        exact m.outVals s (C58.lookupVals_mem hd hr s hs)
    | func nI nO f rs os =>
      rcases ins with _ | ⟨x, xs⟩ <;> rcases out with _ | o <;> simp only [Make.kind, reduceCtorEq] at h2
      cases hr : lookupVals ibus rs with
      | error e => rw [hr] at h2; cases h2
      | ok is =>
        cases hw : lookupVals obus os with
        | error e => rw [hr, hw] at h2; cases h2
        | ok o =>
          rw [hr, hw] at h2; cases h2
          refine ⟨⟨fun s hs => m.all (.inr ⟨_, _, rfl⟩) s (C58.lookupVals_mem hd.1 hr s hs), ?_, (fun s hs => by cases hs), m.once⟩,
            C58.joins_none rfl dv⟩
          intro s hs
          simp only [Leaf.outs, Leaf.preOuts, Kind.outs, Kind.preOuts, List.append_nil] at hs
          exact m.outVals s (C58.lookupVals_mem hd.2 hw s hs)
    | _ =>
      rcases ins with _ | ⟨x, _ | ⟨y, _ | ⟨z, _ | ⟨z', zs⟩⟩⟩⟩ <;> rcases out with _ | o <;>
        simp only [Make.kind, reduceCtorEq, Except.ok.injEq] at h2 <;> subst h2 <;>
        exact hk rfl rfl dv (by simp [Make.cls]) (by simp [Make.cls]) (by simp [Kind.reads, Make.cls, Cls.waits])
          (by simp [Kind.outs, Kind.preOuts]) (by simp [Kind.postReads])

namespace C58

/-- The conditions on the objects of a diagram. -/
def Proper (dbg : Bool) (ps : List (Wire K)) : Prop := ∀ p ∈ ps, p.obj.Direct ∧ p.Checked dbg

theorem all_mem {dbg : Bool} {ps : List (Wire K)} {d d' : Derivs} {ls : List (Leaf K)} (h : connectAll dbg ps d = .ok (ls, d')) :
    ∀ l ∈ ls, ∃ p ∈ ps, ∃ d1 d2, p.connect dbg d1 = .ok (l, d2) := by
  induction ps generalizing d ls with
  | nil => cases h; intro l hl; cases hl
  | cons p ps ih =>
    unfold connectAll at h
    cases h1 : p.connect dbg d with
    | error e => rw [h1] at h; cases h
    | ok r =>
      obtain ⟨l, d1⟩ := r
      rw [h1] at h
      cases h2 : connectAll dbg ps d1 with
      | error e => simp only [h2] at h; cases h
      | ok r2 =>
        obtain ⟨ls2, d2⟩ := r2
        simp only [h2] at h; cases h
        intro l' hl'
        rcases List.mem_cons.1 hl' with e | hl'
        · exact ⟨p, by simp, d, d1, e ▸ h1⟩
        · obtain ⟨q, hq, e⟩ := ih h2 l' hl'
          exact ⟨q, by simp [hq], e⟩

theorem state_slope {l : Leaf K} {s : SigId} (h : l.state = some s) : ∃ x, l.Slope s x := by
  unfold Leaf.state at h
  split at h
  · cases h; exact ⟨_, .inl (by assumption)⟩
  · cases h; exact ⟨_, .inr ⟨_, by assumption⟩⟩
  · cases h

theorem slope_state {l : Leaf K} {s x : SigId} (h : l.Slope s x) : l.state = some s := by
  unfold Leaf.state
  rcases h with h | ⟨tr, h⟩ <;> rw [h]

theorem slope_unique {l : Leaf K} {s x y : SigId} (h : l.Slope s x) (h' : l.Slope s y) : x = y := by
  rcases h with h | ⟨tr, h⟩ <;> rcases h' with h' | ⟨tr', h'⟩ <;> rw [h] at h' <;> cases h' <;> rfl

/-- A call of `connect` on the derivative link of one signal. -/
theorem joins_at {p : Wire K} {l : Leaf K} {d d' : Derivs} (j : Joins p l d d') (s : SigId) :
    (l.state ≠ some s → d' s = d s) ∧ ∀ x, l.Slope s x → d' s = some x := by
  refine ⟨fun hs => ?_, fun x hx => by rw [(j.slope s x hx).link]; simp [upd]⟩
  cases ho : l.state with
  | none => rw [j.other ho]
  | some o =>
    obtain ⟨x, hx⟩ := state_slope ho
    rw [(j.slope o x hx).link]
    have : s ≠ o := fun e => hs (by rw [ho, e])
    simp [upd, this]

/-- The derivative links after all calls. -/
theorem all_derivs {dbg : Bool} {ps : List (Wire K)} (hp : Proper dbg ps) {d d' : Derivs} {ls : List (Leaf K)} (h : connectAll dbg ps d = .ok (ls, d'))
    (s : SigId) :
    ((∀ l ∈ ls, l.state ≠ some s) → d' s = d s) ∧
      ((∃ l ∈ ls, l.state = some s) → ∃ l ∈ ls, ∃ p ∈ ps, ∃ x d1 d2, l.Slope s x ∧ Joined p.ibus p.obus d1 d2 x s ∧ d' s = some x) := by
  induction ps generalizing d ls with
  | nil => cases h; exact ⟨fun _ => rfl, fun ⟨_, h, _⟩ => by cases h⟩
  | cons p ps ih =>
    unfold connectAll at h
    cases h1 : p.connect dbg d with
    | error e => rw [h1] at h; cases h
    | ok r =>
      obtain ⟨l, d1⟩ := r
      rw [h1] at h
      cases h2 : connectAll dbg ps d1 with
      | error e => simp only [h2] at h; cases h
      | ok r2 =>
        obtain ⟨ls2, d2⟩ := r2
        simp only [h2] at h; cases h
        obtain ⟨hd, hc⟩ := hp p (by simp)
        obtain ⟨_, _, j⟩ := C58_leaf dbg p hd hc d d1 l h1
        obtain ⟨i1, i2⟩ := ih (fun q hq => hp q (by simp [hq])) h2
        refine ⟨fun hs => ?_, fun hs => ?_⟩
        · rw [i1 (fun l hl => hs l (by simp [hl])), (joins_at j s).1 (hs l (by simp))]
        · by_cases ht : ∃ l ∈ ls2, l.state = some s
          · obtain ⟨l', hl', q, hq, x, e1, e2, e⟩ := i2 ht
            exact ⟨l', by simp [hl'], q, by simp [hq], x, e1, e2, e⟩
          · have ht' : ∀ l ∈ ls2, l.state ≠ some s := fun l hl e => ht ⟨l, hl, e⟩
            obtain ⟨l', hl', e⟩ := hs
            have : l' = l := (List.mem_cons.1 hl').elim id (fun h => (ht' l' h e).elim)
            subst this
            obtain ⟨x, hx⟩ := state_slope e
            refine ⟨l', by simp, p, by simp, x, d, d1, hx, j.slope s x hx, ?_⟩
            rw [i1 ht']
            exact (joins_at j s).2 x hx

end C58

/-- C58: in a diagram assembled by calls of `connect` on new objects, every leaf is linked to the signals it uses. -/
theorem C58_linked (cfg : Config K) (ps : List (Wire K)) (h : cfg.Assembled ps) (hp : C58.Proper cfg.dbg ps) :
    ∀ l ∈ cfg.model.leaves, l.Linked := by
  intro l hl
  obtain ⟨ls, h1, h2⟩ := h
  obtain ⟨p, hq, d1, d2, e⟩ := C58.all_mem h1 l (h2.mem_iff.1 hl)
  obtain ⟨hd, hc⟩ := hp p hq
  exact (C58_leaf cfg.dbg p hd hc d1 d2 l e).2.1

/-- C58: so `process` waits for what a block reads, and the simulator knows (and clears) what blocks assign. -/
theorem C58_waits (cfg : Config K) (ps : List (Wire K)) (h : cfg.Assembled ps) (hp : C58.Proper cfg.dbg ps) (l : Leaf K)
    (hl : l ∈ cfg.model.leaves) : (∀ s ∈ l.reads, l.Requires s) ∧ ∀ s ∈ l.outs ++ l.preOuts ++ l.postReads, ∃ f, (s, f) ∈ l.links := by
  have hk := C58_linked cfg ps h hp l hl
  refine ⟨fun s hs => ?_, fun s hs => ?_⟩
  · obtain ⟨f, hf, hb⟩ := hk.reads s hs
    exact ⟨f, hf, and_required hb⟩
  · rcases List.mem_append.1 hs with hs | hs
    · obtain ⟨f, hf, _⟩ := hk.writes s hs
      exact ⟨f, hf⟩
    · rcases hk.post s hs with ⟨f, hf, _⟩ | ⟨f, hf, _⟩ <;> exact ⟨f, hf⟩

/-- C58: the signals with a derivative are the outputs of the integrators, and the derivative is the input of an integrator with that output: the only
one, if there is only one. -/
theorem C58_states (cfg : Config K) (ps : List (Wire K)) (h : cfg.Assembled ps) (hp : C58.Proper cfg.dbg ps) :
    (∀ s x, cfg.deriv s = some x → ∃ l ∈ cfg.model.leaves, l.Slope s x) ∧
      (∀ l ∈ cfg.model.leaves, ∀ s, l.state = some s → (cfg.deriv s).isSome = true) ∧
      ∀ l ∈ cfg.model.leaves, ∀ s x, l.Slope s x → (∀ l' ∈ cfg.model.leaves, l'.state = some s → l' = l) → cfg.deriv s = some x := by
  obtain ⟨ls, h1, h2⟩ := h
  have key : ∀ s, (∃ l ∈ cfg.model.leaves, l.state = some s) → ∃ l ∈ cfg.model.leaves, ∃ x, l.Slope s x ∧ cfg.deriv s = some x := by
    rintro s ⟨l, hl, e⟩
    obtain ⟨l', hl', _, _, x, _, _, e1, _, e3⟩ := (C58.all_derivs hp h1 s).2 ⟨l, h2.mem_iff.1 hl, e⟩
    exact ⟨l', h2.mem_iff.2 hl', x, e1, e3⟩
  refine ⟨fun s x e => ?_, fun l hl s e => ?_, fun l hl s x hx hu => ?_⟩
  · by_cases hs : ∃ l ∈ cfg.model.leaves, l.state = some s
    · obtain ⟨l, hl, y, hy, e'⟩ := key s hs
      rw [e] at e'; cases e'
      exact ⟨l, hl, hy⟩
    · rw [(C58.all_derivs hp h1 s).1 (fun l hl e => hs ⟨l, h2.mem_iff.2 hl, e⟩)] at e
      cases e
  · obtain ⟨_, _, x, _, e'⟩ := key s ⟨l, hl, e⟩
    rw [e']; rfl
  · obtain ⟨l', hl', y, hy, e'⟩ := key s ⟨l, hl, C58.slope_state hx⟩
    rw [hu l' hl' (C58.slope_state hy)] at hy
    rw [e', C58.slope_unique hx hy]

/-- C58: in particular the simulator integrates only outputs of integrators. -/
theorem C58_integrated (cfg : Config K) (ps : List (Wire K)) (h : cfg.Assembled ps) (hp : C58.Proper cfg.dbg ps) : cfg.Integrated := by
  intro s _ hs
  obtain ⟨x, e⟩ := Option.isSome_iff_exists.1 hs
  obtain ⟨l, hl, hx⟩ := (C58_states cfg ps h hp).1 s x e
  exact ⟨l, hl, C58.slope_state hx⟩

/-- C58: a state variable and its derivative are both `double` or both arrays of the same size: `connect` throws otherwise. -/
theorem C58_deriv_types (cfg : Config K) (ps : List (Wire K)) (h : cfg.Assembled ps) (hp : C58.Proper cfg.dbg ps) (ty : SigId → Ty)
    (ht : ∀ p ∈ ps, Agrees ty p.ibus ∧ Agrees ty p.obus) (s x : SigId) (e : cfg.deriv s = some x) : (ty s).Float ∧ ty x = ty s := by
  obtain ⟨l, hl, hx⟩ := (C58_states cfg ps h hp).1 s x e
  obtain ⟨ls, h1, h2⟩ := h
  obtain ⟨l', _, p, hq, y, _, _, _, j, e'⟩ := (C58.all_derivs hp h1 s).2 ⟨l, h2.mem_iff.1 hl, C58.slope_state hx⟩
  rw [e] at e'; cases e'
  obtain ⟨t, k, k', m1, m2, hf⟩ := j.types
  obtain ⟨a1, a2⟩ := ht p hq
  rw [a2 _ m1 s t rfl, a1 _ m2 x t rfl]
  exact ⟨hf, rfl⟩

namespace C58

theorem usable_ty {es : Entries} {ty : SigId → Ty} {n : Nat} (ha : Agrees ty es) (hs : Sized n es) {v : VTy} {i : SigId} (h : C10.Usable es v.handle i) :
    ty i = v.toTy n := by
  obtain ⟨⟨k, s⟩, hm, rfl, ht⟩ := h
  cases v <;> cases ht
  · exact ha _ hm _ _ rfl
  · exact ha _ hm _ _ rfl
  · exact ha _ hm _ _ rfl
  · have := hs _ hm _ _ rfl
    subst this
    exact ha _ hm _ _ rfl

theorem replicate_ty {es : Entries} {ty : SigId → Ty} {n : Nat} (ha : Agrees ty es) (hs : Sized n es) {v : VTy} {m : Nat} {is : List SigId}
    (h : C10.Pointwise (C10.Usable es) (List.replicate m v.handle) is) : ∀ i ∈ is, ty i = v.toTy n := by
  induction m generalizing is with
  | zero => cases is with
    | nil => intro i hi; cases hi
    | cons => exact h.elim
  | succ m ih =>
    cases is with
    | nil => exact h.elim
    | cons i is =>
      intro j hj
      rcases List.mem_cons.1 hj with e | hj
      · rw [e]; exact usable_ty ha hs h.1
      · exact ih h.2 j hj

theorem goes_refl (pol : Policy) (t : Ty) : t.Goes pol t := ⟨by cases t <;> trivial, fun _ => rfl⟩

theorem fits_goes {pol : Policy} {v : Val K} {t : Ty} (h : v.Fits t) : v.Goes pol t := ⟨h.1, fun _ => h.2⟩

theorem real_float {v : VTy} (h : v.Real) (n : Nat) : (v.toTy n).Float := by cases v <;> first | trivial | exact h.elim

theorem yields_mono {α : Type} {pol : Policy} {P Q : α → Prop} (h : ∀ a, P a → Q a) {x : Except Err α} (hx : Yields pol P x) : Yields pol Q x := by
  cases x with
  | ok a => exact h a hx
  | error e => exact hx

end C58

/-- C58: a connected block of a library class has ports of the types its class works with, if the arrays on its buses have the same size. -/
theorem C58_typed (pol : Policy) (dbg : Bool) (p : Wire K) (hc : p.Checked dbg) (n : Nat) (hst : p.obj.Static pol n) (ty : SigId → Ty)
    (hi : Agrees ty p.ibus ∧ Sized n p.ibus) (ho : Agrees ty p.obus ∧ Sized n p.obus) (d d' : Derivs) (l : Leaf K)
    (h : p.connect dbg d = .ok (l, d')) : l.Typed pol ty := by
  have hfold : dbg = true ∨ ∀ ty, p.obj.cls = .fold ty → ∀ q ∈ p.ibus, ∃ i n, q.2 = .val i (ty.toTy n) := by
    unfold Wire.Checked at hc
    cases hm : p.obj with
    | add ty v => rw [hm] at hc; exact hc.imp id (fun h ty e => by cases e; exact h)
    | multiply ty v => rw [hm] at hc; exact hc.imp id (fun h ty e => by cases e; exact h)
    | _ => right; intro ty e; cases e
  have hcu : ∀ a b c e f, p.obj ≠ .custom a b c e f := fun a b c e f he => by rw [he] at hst; exact hst
  obtain ⟨b, st, h1, h2, -, -, -⟩ := C58.inv hcu h
  obtain ⟨q1, q2⟩ := cls_types hfold h1
  obtain ⟨id, links, kind⟩ := l
  obtain ⟨ins, out⟩ := b
  obtain ⟨pid, obj, ibus, obus⟩ := p
  simp only at *
  have ui : ∀ {v : VTy} {i : SigId}, C10.Usable ibus v.handle i → ty i = v.toTy n := C58.usable_ty hi.1 hi.2
  have uo : ∀ {v : VTy} {i : SigId}, C10.Usable obus v.handle i → ty i = v.toTy n := C58.usable_ty ho.1 ho.2
  have us : ∀ {i : SigId}, C10.Usable ibus .scalar i → ty i = .scalar := fun h => ui (v := .double) h
  have ub : ∀ {i : SigId}, C10.Usable ibus .bool i → ty i = .bool := fun h => ui (v := .bool) h
  unfold Leaf.Typed
  cases obj with
  | sources _ _ _ => exact hst.elim
  | so _ _ _ _ => exact hst.elim
  | func _ _ _ _ _ => exact hst.elim
  | custom _ _ _ _ _ => exact hst.elim
  | add v i =>
    rcases out with _ | o <;> simp only [Make.kind, reduceCtorEq, Except.ok.injEq] at h2
    subst h2
    have e := uo q2
    exact ⟨e ▸ C58.real_float hst.1 n, v.toTy n, hst.2, e ▸ C58.goes_refl pol _, C58.replicate_ty hi.1 hi.2 q1⟩
  | multiply v i =>
    rcases out with _ | o <;> simp only [Make.kind, reduceCtorEq, Except.ok.injEq] at h2
    subst h2
    have e := uo q2
    exact ⟨e ▸ C58.real_float hst.1 n, v.toTy n, hst.2, e ▸ C58.goes_refl pol _, C58.replicate_ty hi.1 hi.2 q1⟩
  | const v a =>
    rcases ins with _ | ⟨x, xs⟩ <;> rcases out with _ | o <;> simp only [Make.kind, reduceCtorEq, Except.ok.injEq] at h2
    subst h2
    show Val.Goes pol a (ty o)
    rw [uo q2]; exact C58.fits_goes hst
  | source v f =>
    rcases ins with _ | ⟨x, xs⟩ <;> rcases out with _ | o <;> simp only [Make.kind, reduceCtorEq, Except.ok.injEq] at h2
    subst h2
    intro t
    exact C58.yields_mono (fun a ha => uo q2 ▸ C58.fits_goes ha) (hst t)
  | siso v f =>
    rcases ins with _ | ⟨x, _ | ⟨y, xs⟩⟩ <;> rcases out with _ | o <;> simp only [Make.kind, reduceCtorEq, Except.ok.injEq] at h2
    subst h2
    intro t a ha
    rw [ui q1.1] at ha
    exact C58.yields_mono (fun a ha => uo q2 ▸ C58.fits_goes ha) (hst t a ha)
  | gain v k =>
    rcases ins with _ | ⟨x, _ | ⟨y, xs⟩⟩ <;> rcases out with _ | o <;> simp only [Make.kind, reduceCtorEq, Except.ok.injEq] at h2
    subst h2
    rcases hst with ⟨hr, a, rfl⟩ | ⟨hp, rfl, a, rfl⟩
    · exact ⟨ui q1.1 ▸ C58.real_float hr n, by rw [ui q1.1, uo q2]; exact C58.goes_refl pol _⟩
    · exact ⟨hp, ui q1.1, uo q2⟩
  | subtract v =>
    rcases ins with _ | ⟨x, _ | ⟨y, _ | ⟨z, xs⟩⟩⟩ <;> rcases out with _ | o <;> simp only [Make.kind, reduceCtorEq, Except.ok.injEq] at h2
    subst h2
    refine ⟨uo q2 ▸ C58.real_float hst n, ?_, ?_⟩
    · rw [ui q1.1, ui q1.2.1]
    · rw [ui q1.1, uo q2]; exact C58.goes_refl pol _
  | divide v =>
    rcases ins with _ | ⟨x, _ | ⟨y, _ | ⟨z, xs⟩⟩⟩ <;> rcases out with _ | o <;> simp only [Make.kind, reduceCtorEq, Except.ok.injEq] at h2
    subst h2
    refine ⟨uo q2 ▸ C58.real_float hst n, ?_, ?_⟩
    · rw [ui q1.1, ui q1.2.1]
    · rw [ui q1.1, uo q2]; exact C58.goes_refl pol _
  | pipe v =>
    rcases ins with _ | ⟨x, _ | ⟨y, xs⟩⟩ <;> rcases out with _ | o <;> simp only [Make.kind, reduceCtorEq, Except.ok.injEq] at h2
    subst h2
    show (ty x).Goes pol (ty o)
    rw [ui q1.1, uo q2]; exact C58.goes_refl pol _
  | memory v =>
    rcases ins with _ | ⟨x, _ | ⟨y, xs⟩⟩ <;> rcases out with _ | o <;> simp only [Make.kind, reduceCtorEq, Except.ok.injEq] at h2
    subst h2
    show (ty x).Goes pol (ty o)
    rw [ui q1.1, uo q2]; exact C58.goes_refl pol _
  | derivative v =>
    rcases ins with _ | ⟨x, _ | ⟨y, xs⟩⟩ <;> rcases out with _ | o <;> simp only [Make.kind, reduceCtorEq, Except.ok.injEq] at h2
    subst h2
    refine ⟨uo q2 ▸ C58.real_float hst n, ?_⟩
    rw [ui q1.1, uo q2]; exact C58.goes_refl pol _
  | delay v ls =>
    rcases ins with _ | ⟨x, _ | ⟨y, _ | ⟨z, _ | ⟨z', xs⟩⟩⟩⟩ <;> rcases out with _ | o <;> simp only [Make.kind, reduceCtorEq, Except.ok.injEq] at h2
    subst h2
    refine ⟨uo q2 ▸ C58.real_float hst n, ?_, us q1.2.1, ?_⟩
    · rw [ui q1.1, uo q2]; exact C58.goes_refl pol _
    · rw [ui q1.2.2.1, uo q2]; exact C58.goes_refl pol _
  | integrator v =>
    rcases ins with _ | ⟨x, _ | ⟨y, xs⟩⟩ <;> rcases out with _ | o <;> simp only [Make.kind, reduceCtorEq, Except.ok.injEq] at h2
    subst h2
    trivial
  | trigInt v =>
    rcases ins with _ | ⟨x, _ | ⟨y, _ | ⟨z, xs⟩⟩⟩ <;> rcases out with _ | o <;> simp only [Make.kind, reduceCtorEq, Except.ok.injEq] at h2
    subst h2
    exact ub q1.2.1

/-- C58: a diagram that is assembled from blocks of library classes in a debug build is well-typed, so that `C56` applies: `connect` has checked the
types; only sizes of arrays are left to the user, and user-written leaves to their authors. -/
theorem C58_wellTyped [Arith K] (pol : Policy) (cfg : Config K) (ps : List (Wire K)) (h : cfg.Assembled ps) (hp : C58.Proper cfg.dbg ps) (hg : cfg.dbg = true)
    (ty : SigId → Ty) (ht : ∀ p ∈ ps, Agrees ty p.ibus ∧ Agrees ty p.obus)
    (hs : ∀ p ∈ ps, (∃ n, p.obj.Static pol n ∧ Sized n p.ibus ∧ Sized n p.obus) ∨ ∀ d d' l, p.connect cfg.dbg d = .ok (l, d') → l.Typed pol ty)
    (hm : cfg.model.Proper) (hh : ∀ l, (cfg.hash l).Perm l)
    (hin : ∀ f, cfg.inputs = some f → f.Typed pol ty) (hmi : cfg.modelInput.Typed pol ty) (hsp : ∀ st, cfg.stepper = some st → st.Dim)
    (hr : cfg.strategy = .reuse → ∀ w : World K, (∀ s, (w.sig s).ty = ty s) → 0 < stateSize cfg w) : cfg.WellTyped pol ty where
  dbg := hg
  proper := hm
  hash := hh
  leaves := by
    intro l hl
    obtain ⟨ls, h1, h2⟩ := h
    obtain ⟨p, hq, d1, d2, e⟩ := C58.all_mem h1 l (h2.mem_iff.1 hl)
    obtain ⟨a1, a2⟩ := ht p hq
    rcases hs p hq with ⟨n, s1, s2, s3⟩ | hu
    · exact C58_typed pol cfg.dbg p (hp p hq).2 n s1 ty ⟨a1, s2⟩ ⟨a2, s3⟩ d1 d2 l e
    · exact hu d1 d2 l e
  inputs := hin
  modelInput := hmi
  deriv := C58_deriv_types cfg ps h hp ty ht
  stepper := hsp
  states := hr

namespace C58

/-! ## Examples -/

def sc (l : String) (i : SigId) : Str × Signal := (str l, .val i .scalar)

/-- The calls of `connect` that make the diagram `Demo`. -/
def demoWires : List (Wire ℚ) :=
  [⟨1, .add .double (.scalar 0), [sc "a" 1, sc "b" 2], [sc "out" 3]⟩, ⟨4, .integrator .double, [sc "in" 3], [sc "out" 2]⟩,
   ⟨3, .source .double (fun t => .ok (.scalar (t + 1))), [], [sc "out" 0]⟩, ⟨2, .gain .double (.scalar 2), [sc "in" 0], [sc "out" 1]⟩]

theorem demo_assembled (st : Strategy) : (Demo.cfg st).Assembled demoWires := by
  refine ⟨[Demo.add, Demo.integ, Demo.source, Demo.gain], ?_, ?_⟩
  · rfl
  · show Demo.model.leaves.Perm _
    rw [Demo.leaves_eq]
    exact .cons _ ((List.Perm.swap _ _ _).trans ((List.Perm.cons _ (List.Perm.swap _ _ _)).trans (List.Perm.swap _ _ _)))

theorem demo_proper : Proper true demoWires := by
  intro p hp
  simp only [demoWires, List.mem_cons, List.not_mem_nil, or_false] at hp
  rcases hp with rfl | rfl | rfl | rfl <;> first | exact ⟨trivial, .inl rfl⟩ | exact ⟨trivial, trivial⟩

/-- All hypotheses of `C58_wellTyped` hold for the diagram `Demo`. -/
example (pol : Policy) (st : Strategy) : (Demo.cfg st).WellTyped pol (fun _ => .scalar) := by
  have hw := C56.demo_wellTyped pol st
  refine C58_wellTyped pol _ demoWires (demo_assembled st) demo_proper rfl _ ?_ ?_ hw.proper hw.hash hw.inputs hw.modelInput hw.stepper hw.states
  · intro p hp
    simp only [demoWires, List.mem_cons, List.not_mem_nil, or_false] at hp
    rcases hp with rfl | rfl | rfl | rfl <;> constructor <;> intro q hq i t e <;>
      (try simp only [sc, List.mem_cons, List.not_mem_nil, or_false] at hq) <;> first | exact hq.elim | (subst hq; cases e; rfl) | (rcases hq with rfl | rfl <;> cases e <;> rfl)
  · intro p hp
    refine .inl ⟨0, ?_⟩
    simp only [demoWires, List.mem_cons, List.not_mem_nil, or_false] at hp
    rcases hp with rfl | rfl | rfl | rfl <;> refine ⟨?_, ?_, ?_⟩ <;>
      first
      | exact ⟨trivial, rfl, rfl⟩ | trivial | exact fun t => ⟨rfl, rfl⟩ | exact .inl ⟨trivial, 2, rfl⟩
      | (intro q hq i m e
         simp only [sc, List.mem_cons, List.not_mem_nil, or_false] at hq <;>
         first | (rcases hq with rfl | rfl <;> cases e) | (subst hq; cases e) | exact hq.elim)

/-! ### Signals in a bus in the input bus -/

/-- An input bus with the bus `b`, in which the signal 0 is called `x`. -/
def nested : Entries := [(str "b", .bus 9 [sc "x" 0])]

/-- A function of `b.x`. -/
def nestedFn : Make ℚ := .so .double none (fun _ vs => .ok (vs.headD (.scalar 0))) [.label (str "b.x")]

def copy (is os : List SigId) : Custom ℚ where
  preOuts := []
  pre _ u := .ok (u, [])
  reads := is
  outs := os
  act _ u vs := .ok (u, [vs.head?])
  postReads := []
  post _ u _ := .ok u

/-- The same as a user-written leaf, which calls `input("b.x")`. -/
def nestedLeaf : Make ℚ := .custom none (some 1) [.label (str "b.x")] [.idx 0] copy

def nestedWires (m : Make ℚ) : List (Wire ℚ) :=
  [⟨1, m, nested, [sc "out" 1]⟩, ⟨2, .source .double (fun t => .ok (.scalar t)), [], [sc "out" 0]⟩]

/-- The model of the two blocks. -/
def nestedCfg (dbg : Bool) (ls : List (Leaf ℚ)) : Config ℚ where
  dbg := dbg
  model := .sub 100 [] (ls.map .leaf)
  deriv _ := none
  inputs := none
  modelInput _ := ([], none)
  stepper := none
  strategy := .plain
  hash := id

theorem at_nested : busAt nested (str "b.x") = .ok (.val 0 .scalar) := by
  rw [busAt_eq_resolve C03.ex_path]; rfl

def source0 : Leaf ℚ := { id := 2, links := [(0, Demo.ot)], kind := .source (fun t => .ok (.scalar t)) 0 }

def fnLeaf : Leaf ℚ := { id := 1, links := [(1, Demo.ot)], kind := .so (fun _ vs => .ok (vs.headD (.scalar 0))) [0] 1 }

def userLeaf : Leaf ℚ :=
  { id := 1, links := [(1, Demo.ot), (0, Demo.rq)], kind := .custom (copy [0] [1]) }

theorem fn_assembled (dbg : Bool) : (nestedCfg dbg [fnLeaf, source0]).Assembled (nestedWires nestedFn) := by
  refine ⟨_, ?_, .refl _⟩
  show connectAll dbg (nestedWires nestedFn) (fun _ => none) = .ok ([fnLeaf, source0], fun _ => none)
  have h1 : Wire.connect dbg ⟨1, nestedFn, nested, [sc "out" 1]⟩ (fun _ => none) = .ok (fnLeaf, fun _ => none) := by
    have hl : lookupVals nested [.label (str "b.x")] = .ok [0] := by simp only [lookupVals, lookupVal, Key.at, at_nested]
    have hk : nestedFn.kind nested [sc "out" 1] ⟨[], some 1⟩ = .ok fnLeaf.kind := by simp only [nestedFn, Make.kind, hl]; rfl
    have : nestedFn.connect dbg nested [sc "out" 1] ⟨{}, fun _ => none⟩ =
      (liftE (nestedFn.kind nested [sc "out" 1] ⟨[], some 1⟩) : CM _) ⟨{ links := [(1, Demo.ot)], ibus := nested, obus := [sc "out" 1], connected := true }, fun _ => none⟩ := rfl
    rw [hk] at this
    simp only [Wire.connect, this]; rfl
  simp only [nestedWires, connectAll, h1]
  rfl

theorem user_assembled : (nestedCfg true [userLeaf, source0]).Assembled (nestedWires nestedLeaf) := by
  refine ⟨_, ?_, .refl _⟩
  show connectAll true (nestedWires nestedLeaf) (fun _ => none) = .ok ([userLeaf, source0], fun _ => none)
  have h1 : Wire.connect true ⟨1, nestedLeaf, nested, [sc "out" 1]⟩ (fun _ => none) = .ok (userLeaf, fun _ => none) := by
    have hi : ∀ st : CState, st.c.ibus = nested → inputsAt [.label (str "b.x")] st =
        .ok [0] { st with c := { st.c with links := linkSignal st.c.links (.val 0 .scalar) (Flags.input ||| Flags.required) } } := by
      intro st h
      have : inputAt (.label (str "b.x")) st =
          .ok (.val 0 .scalar) { st with c := { st.c with links := linkSignal st.c.links (.val 0 .scalar) (Flags.input ||| Flags.required) } } := by
        simp only [inputAt, bind_apply, get_apply, h, Key.at, at_nested]; rfl
      simp only [inputsAt, bind_apply, this]; rfl
    have : nestedLeaf.connect true nested [sc "out" 1] ⟨{}, fun _ => none⟩ =
      (inputsAt [.label (str "b.x")] >>= fun is => outputsAt [.idx 0] >>= fun os => pure (.custom (copy is os)) : CM (Kind ℚ))
        ⟨{ links := [(1, Demo.ot)], ibus := nested, obus := [sc "out" 1], connected := true }, fun _ => none⟩ := rfl
    rw [bind_apply, hi _ rfl] at this
    simp only [Wire.connect, this]; rfl
  simp only [nestedWires, connectAll, h1]
  rfl

end C58

/-- C58 is false for functions that look up signals in buses of the input bus: `connect` links the entries of the buses themselves only, so that the
function does not wait for `b.x`: it is called before the source is activated, though there is no algebraic loop.  In a debug build `init` throws; in a
release build it reads an indeterminate value. -/
theorem C58_nested_bus_refuted : ∃ (cfg : Bool → Config ℚ) (ps : List (Wire ℚ)), (∀ dbg, (cfg dbg).Assembled ps ∧ ∀ p ∈ ps, p.Checked dbg) ∧
    (∃ l ∈ (cfg true).model.leaves, ∃ s ∈ l.reads, ¬ l.Requires s) ∧
    C57.throws .unassigned (Call.exec (cfg true) (.init 0) { w := Demo.world, s := { tPrev := 0 } }) = true ∧
    C56.isUb .uninitRead (Call.exec (cfg false) (.init 0) { w := Demo.world, s := { tPrev := 0 } }) = true := by
  refine ⟨fun dbg => C58.nestedCfg dbg [C58.fnLeaf, C58.source0], C58.nestedWires C58.nestedFn, fun dbg => ⟨C58.fn_assembled dbg, ?_⟩,
    ⟨C58.fnLeaf, .head _, (0 : Nat), List.Mem.head _, ?_⟩, by decide +kernel, by decide +kernel⟩
  · intro p hp
    simp only [C58.nestedWires, List.mem_cons, List.not_mem_nil, or_false] at hp
    rcases hp with rfl | rfl <;> trivial
  · rintro ⟨f, hf, _⟩
    simp [C58.fnLeaf] at hf

/-- The user-written leaf is linked to `b.x` and meets the conditions of C58; `init` returns. -/
example : (C58.nestedCfg true [C58.userLeaf, C58.source0]).Assembled (C58.nestedWires C58.nestedLeaf) ∧ C58.Proper true (C58.nestedWires C58.nestedLeaf) ∧
    returns (Call.exec (C58.nestedCfg true [C58.userLeaf, C58.source0]) (.init 0) { w := Demo.world, s := { tPrev := 0 } }) = true := by
  refine ⟨C58.user_assembled, ?_, by decide +kernel⟩
  intro p hp
  simp only [C58.nestedWires, List.mem_cons, List.not_mem_nil, or_false] at hp
  rcases hp with rfl | rfl
  · exact ⟨fun is os => ⟨fun s h => h, fun s h => by simpa [C58.copy] using h, fun s h => by cases h⟩, trivial⟩
  · exact ⟨trivial, trivial⟩

end Pooya
