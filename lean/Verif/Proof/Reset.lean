import Verif.Spec.Reset
import Verif.Proof.Pace
import Verif.Props.C37

/-! Calls of `run` in diagrams with `TriggeredIntegrator`s. -/

namespace Pooya

set_option linter.unusedSectionVars false

variable {K : Type} [Arith K] {cfg : Config K}

/-- A `TriggeredIntegrator` that requires its trigger and its output. -/
def Leaf.Trig (l : Leaf K) : Prop := ∃ x tr o, l.kind = .trigInt x tr o ∧ ∀ s, l.Requires s → s = tr ∨ s = o

theorem begun_eq (l : Leaf K) (μ : Mem K) : l.begun μ = l.afterPre μ := by
  unfold Leaf.begun Leaf.afterPre Leaf.pending
  cases l.kind <;> rfl

theorem Quiet.begun {l : Leaf K} {μ : Mem K} (h : l.Quiet μ) : l.begun μ = μ := by
  unfold Leaf.Quiet at h
  unfold Leaf.begun
  cases hk : l.kind <;> first | rfl | (rw [hk] at h; exact h.elim)

theorem Calm.noted {l : Leaf K} {μ : Mem K} (h : l.Calm) (val : SigId → Option (Val K)) : l.noted val μ = μ := by
  unfold Leaf.Calm at h
  unfold Leaf.noted
  cases hk : l.kind <;> first | rfl | (rw [hk] at h; exact h.elim)

theorem isSet_iff {m : Machine K} {tr : SigId} : isSet m.w.shown tr = true ↔ m.fires tr := by
  unfold isSet Machine.fires Machine.value World.shown
  cases ha : (m.w.sig tr).assigned with
  | false => simp
  | true =>
    cases hv : (m.w.sig tr).value with
    | none => simp
    | some v => cases v <;> simp

/-- What stays the same between two evaluations. -/
structure Ride (cfg : Config K) (m : Machine K) : Prop where
  ready : Ready cfg m
  full : Full cfg m
  tame : ∀ l ∈ cfg.model.leaves, l.Quiet (m.w.mem l.id) ∨ l.Trig
  held : ∀ l ∈ cfg.model.leaves, ∀ o, l.state = some o → o ∈ m.vars.scalars ++ m.vars.arrays

theorem Ride.record {m : Machine K} {e : Event K} (h : Ride cfg m) : Ride cfg (m.record e) := ⟨h.ready.record, h.full, h.tame, h.held⟩

theorem Ride.withSv {m : Machine K} {x : List K} (h : Ride cfg m) (hx : x.length = m.s.nState) : Ride cfg (m.withSv x) := ⟨h.ready.withSv hx, h.full, h.tame, h.held⟩

theorem Ride.integrated (ho : Owned cfg) {m : Machine K} (h : Ride cfg m) : ∀ s ∈ m.vars.scalars ++ m.vars.arrays, ∃ l ∈ cfg.model.leaves, l.state = some s := by
  intro s hs
  obtain ⟨k1, k2⟩ := state_sig h.ready.layout ho.hash hs
  exact ho.integrated s k1 k2

/-- The members of a `TriggeredIntegrator` after an evaluation. -/
theorem trig_evaluated (hd : cfg.dbg = true) (ho : Owned cfg) {l : Leaf K} (hl : l ∈ cfg.model.leaves) {x tr o : SigId} (hk : l.kind = .trigInt x tr o)
    (hreq : ∀ s, l.Requires s → s = tr ∨ s = o) {m m1 m' : Machine K} {t : K} {y : List K} {q : Bool} (h : Ride cfg m) (hy : y.length = m.s.nState)
    (h1 : resetWith cfg y m = .ok () m1) (h2 : processModel cfg t false q m1 = .ok () m') :
    ∃ v, m'.w.mem l.id = { l.noted m'.w.shown (m.w.mem l.id) with value := v } ∧ (if q then m'.w.shown o = some v else v = (m.w.mem l.id).value) := by
  have hs : l.state = some o := by unfold Leaf.state; rw [hk]
  obtain ⟨r1, e1⟩ := h.ready.reset h1
  have hf1 : Full cfg m1 := by unfold Full; rw [e1]; exact h.full
  have hst := h.ready.layout.statesOk ho.hash
  obtain ⟨g1, g2, _, _, g5⟩ := resetWith_holds hst.nodup (by rw [hy, hst.slots]) h1
  have hasg : (m1.w.sig o).assigned = true := g2 o (h.held l hl o hs)
  obtain ⟨b, b1, b2⟩ := process_trig hd ho.proper hl hk hreq r1.mid hf1 hasg h2
  obtain ⟨v, b', c1, c2, _⟩ := process_integ ho.proper hl hs r1.mid h2
  simp only [Bool.false_eq_true, if_false] at c1 c2
  rw [reset_mem h1] at b2 c1 c2
  have eb : b' = ((m.w.mem l.id).triggered || isSet m'.w.shown tr) := by
    have : b' = b := by rw [← b1, c1]
    rw [this, Bool.eq_iff_iff, b2, Bool.or_eq_true, isSet_iff]
  refine ⟨v, ?_, ?_⟩
  · rw [c1, eb]
    unfold Leaf.noted
    rw [hk]
  · cases q with
    | false => exact c2
    | true =>
      rw [if_pos rfl] at c2 ⊢
      have ha : (m'.w.sig o).assigned = true := by
        rw [(process_shown hd ho.proper r1.mid h2).2 o hasg]; exact hasg
      rw [shown_val ha]; exact c2

/-- A block that is quiet before an evaluation. -/
theorem quiet_evaluated (ho : Owned cfg) {l : Leaf K} (hl : l ∈ cfg.model.leaves) {m m1 m' : Machine K} {t : K} {y : List K} (h : Ride cfg m)
    (hq : l.Quiet (m.w.mem l.id)) (h1 : resetWith cfg y m = .ok () m1) (h2 : processModel cfg t false false m1 = .ok () m') : m'.w.mem l.id = m.w.mem l.id := by
  have a1 : At cfg l (m.w.mem l.id) m1 := tri_ok (at_reset ho.proper hl hq y) ⟨h.ready.mid, rfl⟩ h1
  have a2 : At cfg l (m.w.mem l.id) m' := tri_ok (at_process ho.proper hl hq t false) a1 h2
  exact a2.2

theorem Trig.noCalm {l : Leaf K} (h : l.Trig) : ¬ l.Calm := by
  obtain ⟨x, tr, o, hk, _⟩ := h
  unfold Leaf.Calm
  rw [hk]
  exact id

/-- An evaluation in the middle of a step. -/
theorem Ride.minor (ho : Owned cfg) (hd : cfg.dbg = true) {m m' : Machine K} {t : K} {x d : List K} {n : Nat} (h : Ride cfg m) (hn : m.s.nState = n) (hl : x.length = n)
    (hx : minorCb cfg t x m = .ok d m') : Ride cfg m' ∧ m'.s.nState = n ∧ d.length = n ∧ m'.vars = m.vars ∧ Stage cfg m.vars m.w.mem t x d m'.w.mem := by
  obtain ⟨m1, h1, h2, h3⟩ := minor_ok hx
  obtain ⟨r1, r2, r3⟩ := h.ready.minor hx
  have hfx := (covers_fixed cfg).toCoversC.minorCb t x m
  rw [hx] at hfx
  have hfx : Fixed m m' := hfx
  have hv : m'.vars = m.vars := vars_fixed hfx
  have hsol := eval_solution ho hd h.ready h.full (by rw [hl, hn]) (fun _ _ => rfl) h1 h2
  have hpk := derivs_packed ho hd r1 h3
  have key : ∀ l ∈ cfg.model.leaves, m'.w.mem l.id = l.noted m'.w.shown (m.w.mem l.id) := by
    intro l hl'
    rcases h.tame l hl' with hq | ⟨i, tr, o, hk, hreq⟩
    · rw [Calm.noted (Quiet.calm hq)]
      exact quiet_evaluated ho hl' h hq h1 h2
    · obtain ⟨v, e1, e2⟩ := trig_evaluated hd ho hl' hk hreq h (by rw [hl, hn]) h1 h2
      simp only [Bool.false_eq_true, if_false] at e2
      rw [e1, e2]
      unfold Leaf.noted
      rw [hk]
  refine ⟨⟨r1, by unfold Full; rw [r2]; exact h.full, fun l hl => ?_, by rw [hv]; exact h.held⟩, by rw [r2]; exact hn, by rw [r3]; exact hn, hv, m'.w.shown, hsol, ?_, key⟩
  · rcases h.tame l hl with hq | ht
    · left; rw [key l hl, Calm.noted (Quiet.calm hq)]; exact hq
    · exact .inr ht
  · rw [← hv]; exact hpk

theorem exec_along (ho : Owned cfg) (hd : cfg.dbg = true) {n : Nat} {p : StepProg K} (hp : p.Dim n) {m m' : Machine K} {r : List K × K} (h : Ride cfg m)
    (hn : m.s.nState = n) (hx : p.exec (minorCb cfg) m = .ok r m') :
    Ride cfg m' ∧ m'.s.nState = n ∧ r.1.length = n ∧ m'.vars = m.vars ∧ p.Along (Stage cfg m.vars) m.w.mem r m'.w.mem := by
  induction p generalizing m with
  | ret v hh => cases hx; exact ⟨h, hn, hp, rfl, rfl, rfl⟩
  | call t v k ih =>
    unfold StepProg.exec at hx
    obtain ⟨d, m1, h1, h2⟩ := ok_bind hx
    obtain ⟨c1, c2, c3, c4, c5⟩ := h.minor ho hd hn hp.1 h1
    obtain ⟨i1, i2, i3, i4, i5⟩ := ih d (hp.2 d c3) c1 c2 h2
    rw [c4] at i5
    exact ⟨i1, i2, i3, i4.trans c4, d, _, c5, i5⟩

/-- The beginning of a trial step. -/
theorem Ride.begin (ho : Owned cfg) {m m' : Machine K} {t : K} {x : List K} (h : Ride cfg m) (hx : beginStep cfg t m = .ok x m') :
    Ride cfg m' ∧ m'.s.nState = m.s.nState ∧ x.length = m.s.nState ∧ m'.vars = m.vars ∧ (∀ l ∈ cfg.model.leaves, m'.w.mem l.id = l.begun (m.w.mem l.id)) ∧
      cfg.Stands m.vars m'.w.mem x := by
  obtain ⟨r1, r2, r3⟩ := h.ready.begin hx
  have hfx := (covers_fixed cfg).toCoversC.beginStep t m
  rw [hx] at hfx
  have hfx : Fixed m m' := hfx
  have hv : m'.vars = m.vars := vars_fixed hfx
  have key : ∀ l ∈ cfg.model.leaves, m'.w.mem l.id = l.begun (m.w.mem l.id) := by
    intro l hl
    rcases h.tame l hl with hq | ⟨i, tr, o, hk, _⟩
    · rw [Quiet.begun hq]
      have : At cfg l (m.w.mem l.id) m' := tri_ok (at_begin ho.proper hl hq t) ⟨h.ready.mid, rfl⟩ hx
      exact this.2
    · have hs : l.state = some o := by unfold Leaf.state; rw [hk]
      obtain ⟨w1, w2, w3, h1, h2, h3, h4⟩ := beginStep_ok hx
      obtain ⟨e, _⟩ := getStates_ok h4
      subst e
      obtain ⟨_, _, g3⟩ := preStep_integ ho.proper hl hs (fun l' hl' hs' => ho.drivers.prePre l' hl' l hl o hs' (state_preOuts hs)) h3
      rw [inputs_mem h2, clear_mem h1] at g3
      rw [begun_eq]
      exact g3
  refine ⟨⟨r1, by unfold Full; rw [r2]; exact h.full, fun l hl => ?_, by rw [hv]; exact h.held⟩, by rw [r2], r3, hv, key, ?_⟩
  · rcases h.tame l hl with hq | ht
    · left; rw [key l hl, Quiet.begun hq]; exact hq
    · exact .inr ht
  · have hb := begin_packed ho h.ready hx
    refine Packed.congr hb (fun s hs => ?_) (fun _ _ => rfl)
    obtain ⟨l, hl, hls⟩ := h.integrated ho s hs
    unfold Config.startVal
    rw [ho.find hl hls]
    show some (m'.w.mem l.id).value = some (l.start (m.w.mem l.id))
    rw [key l hl, begun_eq, afterPre_value]

theorem Ride.trial (ho : Owned cfg) (hd : cfg.dbg = true) {st : Stepper K} (hst : cfg.stepper = some st) (hdim : Stepper.Dim st) {m m2 : Machine K} {t1 t2 : K} {r : List K × K}
    (h : Ride cfg m) (ht : Trial cfg t1 t2 m r m2) :
    Ride cfg m2 ∧ m2.s.nState = m.s.nState ∧ r.1.length = m.s.nState ∧ m2.vars = m.vars ∧ Attempt cfg m.vars st m.w.mem t1 t2 r m2.w.mem := by
  obtain ⟨orig, m1, st', h1, h2, h3⟩ := ht.ex
  rw [hst] at h2
  cases h2
  obtain ⟨c1, c2, c3, c4, c5, c6⟩ := h.begin ho h1
  have hdm : (st t1 orig t2).Dim m.s.nState := by rw [← c3]; exact hdim t1 t2 orig
  obtain ⟨i1, i2, i3, i4, i5⟩ := exec_along ho hd hdm (c1.record (e := .trial t1 t2)) c2 h3
  have i4 : m2.vars = m1.vars := i4
  have i5 : (st t1 orig t2).Along (Stage cfg m1.vars) m1.w.mem r m2.w.mem := i5
  rw [c4] at i4 i5
  exact ⟨i1, i2, i3, i4, m1.w.mem, orig, c5, c6, i5⟩

/-- The evaluation at the end of a step. -/
theorem Ride.close (ho : Owned cfg) (hd : cfg.dbg = true) {m m1 m' : Machine K} {t : K} {x : List K} (h : Ride cfg m) (hx : x.length = m.s.nState)
    (h1 : resetWith cfg x m = .ok () m1) (h2 : processModel cfg t false true m1 = .ok () m') :
    Ride cfg m' ∧ m'.s.nState = m.s.nState ∧ m'.vars = m.vars ∧ Closes cfg m.vars m.w.mem t x m'.w.shown m'.w.mem := by
  have hsol := eval_solution ho hd h.ready h.full hx (fun _ _ => rfl) h1 h2
  obtain ⟨r1, e1⟩ := h.ready.reset h1
  obtain ⟨r2, e2⟩ := r1.process h2
  have f1 := (covers_fixed cfg).reset x m
  have f2 := (covers_fixed cfg).processModel t false true m1
  rw [h1] at f1
  rw [h2] at f2
  have f1 : Fixed m m1 := f1
  have f2 : Fixed m1 m' := f2
  have hv : m'.vars = m.vars := (vars_fixed f2).trans (vars_fixed f1)
  have key : ∀ l ∈ cfg.model.leaves, l.Stored t m'.w.shown (l.noted m'.w.shown (m.w.mem l.id)) (m'.w.mem l.id) := by
    intro l hl
    rcases h.tame l hl with hq | ⟨i, tr, o, hk, hreq⟩
    · rw [Calm.noted (Quiet.calm hq)]
      obtain ⟨w1, w2, m3, g1, g2, g3, g4⟩ := processModel_ok h2
      rw [if_pos rfl] at g4
      obtain ⟨w4, g4, rfl⟩ := g4
      obtain ⟨wa, wb, k1, k2, k3, k4⟩ := postStep_leaf ho.proper g4 hl
      have hm3 : m3.w.mem l.id = m.w.mem l.id := by
        have hat : At cfg l (m.w.mem l.id) { m1 with w := w2 } := by
          rw [if_neg (by simp)] at g2
          subst g2
          exact tri_ok (at_inputs ho.proper hl hq t) (s := m1) (a := ()) ⟨r1.mid, by rw [reset_mem h1]⟩ (by unfold inW; rw [g1])
        exact (tri_ok (at_eval ho.proper hl hq t) hat g3).2
      rw [hd] at k1
      have := post_stored k1
      rw [k2, hm3] at this
      have e : w4.shown = wa.shown := by
        funext s; unfold World.shown; rw [k3, postStep_sig g4]
      show l.Stored t w4.shown (m.w.mem l.id) (w4.mem l.id)
      rw [e, k4]
      exact this
    · obtain ⟨v, k1, k2⟩ := trig_evaluated hd ho hl hk hreq h hx h1 h2
      rw [if_pos rfl] at k2
      unfold Leaf.Stored
      rw [hk]
      exact ⟨v, k2, k1⟩
  refine ⟨⟨r2, by unfold Full; rw [e2, e1]; exact h.full, fun l hl => ?_, by rw [hv]; exact h.held⟩, by rw [e2, e1], hv, hsol, key⟩
  rcases h.tame l hl with hq | ht
  · exact .inl (Stored.quiet (key l hl) (Quiet.calm hq))
  · exact .inr ht

theorem subrun_resets (ho : Owned cfg) (hd : cfg.dbg = true) {st : Stepper K} (hst : cfg.stepper = some st) (hdim : Stepper.Dim st) {t minH maxH t1 t2 : K} {f : Bool}
    {m m1 m' : Machine K} (h : SubRun cfg t minH maxH t1 t2 f m m1) (hf : Final cfg t m1 m') {L : List (Event K)} {es : List (StepEv K)} (hc : Ride cfg m)
    (h0 : 0 < m.s.nState) (ha : After L es m) (hlt : (t1 <. t) = true) :
    ∃ (es' : List (StepEv K)) (y : List K), After L (es ++ es') m' ∧ Resets cfg m.vars st minH maxH t m.w.mem t1 t2 f es' y m'.w.shown m'.w.mem := by
  induction h generalizing es with
  | stop h => rw [hlt] at h; cases h
  | @reject t1 t2 f m m2 m1 r h1 h2 h3 h4 ih =>
    obtain ⟨c1, c2, c3, c4, c5⟩ := hc.trial ho hd hst hdim h2
    have a1 := ha.trial h2
    have a2 : After L (es ++ [.trial t1 t2]) (m2.withSv r.1) := a1
    obtain ⟨es', y, i1, i2⟩ := ih hf (c1.withSv (by rw [c3, c2])) (by rw [show (m2.withSv r.1).s.nState = m2.s.nState from rfl, c2]; exact h0) a2 hlt
    rw [show (m2.withSv r.1).vars = m.vars from c4] at i2
    refine ⟨.trial t1 t2 :: es', y, ?_, ?_⟩
    · rw [← List.append_cons] at i1; exact i1
    · exact .reject hlt c5 (fun hs => by rw [suits_iff.1 hs] at h3; cases h3) i2
  | @accept t1 t2 f m m2 m3 m1 r h1 h2 h3 h4 h5 ih =>
    obtain ⟨c1, c2, c3, c5, hby⟩ := hc.trial ho hd hst hdim h2
    have a1 := ha.trial h2
    have a1 : After L (es ++ [.trial t1 t2]) (m2.withSv r.1) := a1
    have a2 : After L ((es ++ [.trial t1 t2]) ++ [.accept t1 t2]) ((m2.withSv r.1).record (.accept t1 t2)) := a1.step (e := .accept t1 t2) rfl
    have c4 : Ride cfg ((m2.withSv r.1).record (.accept t1 t2)) := (c1.withSv (by rw [c3, c2])).record
    have hn4 : ((m2.withSv r.1).record (.accept t1 t2)).s.nState = m.s.nState := c2
    have hv4 : ((m2.withSv r.1).record (.accept t1 t2)).vars = m.vars := c5
    unfold MidEval at h4
    by_cases hu : (t2 <. t) = true
    · rw [if_pos hu] at h4
      obtain ⟨m4, g1, g2⟩ := h4
      obtain ⟨k1, k2, k3, k4⟩ := c4.close ho hd (by rw [c3, hn4]) g1 g2
      have a3 := (a2.move ((covers_noStep cfg).reset _) g1).move ((covers_noStep cfg).processModel _ _ _) g2
      obtain ⟨es', y, i1, i2⟩ := ih hf k1 (by rw [k2, hn4]; exact h0) a3 hu
      rw [k3, hv4] at i2
      rw [hv4] at k4
      refine ⟨.trial t1 t2 :: .accept t1 t2 :: es', y, ?_, ?_⟩
      · simpa using i1
      · exact .step hlt hby (suits_iff.2 h3) hu k4 i2
    · rw [if_neg hu] at h4
      subst h4
      have hu : (t2 <. t) = false := by simpa using hu
      clear ih
      generalize fmin (t2 +. fmax minH (fmin r.2 maxH)) t = u' at h5
      generalize hg : (m2.withSv r.1).record (.accept t1 t2) = m3 at h5
      cases h5 with
      | stop _ =>
        subst hg
        obtain ⟨x', ma, mb, f1, f2, f3, f4⟩ := hf.ex
        cases f1
        rw [show decide (r.1.length = 0) = false from decide_eq_false (by rw [c3]; omega)] at f3
        obtain ⟨k1, k2, k3, k4⟩ := c4.close ho hd (by rw [c3, hn4]) f2 f3
        have a3 := (a2.move ((covers_noStep cfg).reset _) f2).move ((covers_noStep cfg).processModel _ _ _) f3
        subst f4
        rw [hv4] at k4
        refine ⟨[.trial t1 t2, .accept t1 t2], r.1, ?_, ?_⟩
        · have a4 : After L (es ++ [.trial t1 t2, .accept t1 t2]) mb := by simpa using a3
          exact a4
        · exact .last hlt hby (suits_iff.2 h3) hu k4
      | reject g1 _ _ _ => rw [hu] at g1; cases g1
      | accept g1 _ _ _ _ => rw [hu] at g1; cases g1

theorem Ongoing.ride (ho : Owned cfg) (hd : cfg.dbg = true) (hdim : ∀ st, cfg.stepper = some st → Stepper.Dim st) (hc : ∀ l ∈ cfg.model.leaves, l.Tame) {m : Machine K}
    (h : Ongoing cfg m) (hh : ∀ l ∈ cfg.model.leaves, ∀ o, l.state = some o → o ∈ m.vars.scalars ++ m.vars.arrays) : Ride cfg m := by
  obtain ⟨h1, h2⟩ := h.once
  obtain ⟨h3, w2, w, t, h4, h5⟩ := h.last ho.proper
  refine ⟨once_ready hdim h1 h2, h3, fun l hl => ?_, hh⟩
  rcases hc l hl with hc | ⟨x, tr, o, hk, hreq⟩
  · left
    obtain ⟨wa, wb, k1, k2, k3, k4⟩ := postStep_leaf ho.proper h4 hl
    rw [hd] at k1
    have := Stored.quiet (post_stored k1) hc
    rw [h5, k4]; exact this
  · exact .inr ⟨x, tr, o, hk, fun s ⟨f, h1, h2⟩ => hreq s f h1 h2⟩

end Pooya
