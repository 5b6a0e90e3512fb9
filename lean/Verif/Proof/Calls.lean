import Verif.Spec.Calls
import Verif.Proof.RunOk
import Verif.Proof.EvalLog
import Verif.Proof.Leafwise

/-! The calls of block functions recorded by a run. -/

namespace Pooya

set_option linter.unusedSectionVars false

variable {K : Type} [Arith K]

/-- `es` was recorded between `w` and `w'`. -/
def Wrote (es : List (Event K)) (w w' : World K) : Prop := w'.log = es.reverse ++ w.log

theorem Wrote.nil {w w' : World K} (h : w'.log = w.log) : Wrote [] w w' := by simpa [Wrote] using h

theorem Wrote.append {a b : List (Event K)} {w w1 w2 : World K} (h1 : Wrote a w w1) (h2 : Wrote b w1 w2) : Wrote (a ++ b) w w2 := by
  unfold Wrote at *
  rw [h2, h1, List.reverse_append, List.append_assoc]

theorem Moves.sameLog {α : Type} {x : M K α} (h : Moves SameLog x) {w w' : World K} {a : α} (hx : x w = .ok a w') : Wrote [] w w' := by
  have := h w
  rw [hx] at this
  exact .nil this

theorem wrote_clear {ss : List SigId} {w w' : World K} (h : clearAll ss w = .ok () w') : Wrote [] w w' :=
  (moves_clearAll ss (fun _ _ _ => rfl)).sameLog h

theorem wrote_inputs {cfg : Config K} {t : K} {w w' : World K} (h : callInputs cfg t w = .ok () w') : Wrote [.input t] w w' := by
  have := inputs_log cfg t w
  rw [h] at this
  exact this

theorem pre_within {dbg : Bool} {t : K} {l : Leaf K} (w : World K) :
    (stateOf (l.pre dbg t w)).log = .pre l.id t :: w.log := by
  have := frame_preBody dbg l t { w with log := .pre l.id t :: w.log }
  rw [← pre_apply] at this
  cases h : l.pre dbg t w with
  | ok a w1 => rw [h] at this; exact this.log
  | error e w1 => rw [h] at this; exact this.log

theorem post_within {dbg : Bool} {t : K} {l : Leaf K} (w : World K) :
    (stateOf (l.post dbg t w)).log = .post l.id t :: w.log := by
  have := frame_postBody dbg l t { w with log := .post l.id t :: w.log }
  rw [← post_apply] at this
  cases h : l.post dbg t w with
  | ok a w1 => rw [h] at this; exact this.log
  | error e w1 => rw [h] at this; exact this.log

theorem preAll_log {dbg : Bool} {t : K} (ls : List (Leaf K)) (w : World K) :
    ∃ p, p <+: ls ∧ (stateOf (preAll dbg t ls w)).log = (p.map (fun l => Event.pre l.id t)).reverse ++ w.log ∧
      (returns (preAll dbg t ls w) = true → p = ls) := by
  induction ls generalizing w with
  | nil => exact ⟨[], by simp, by simp [preAll, stateOf], fun _ => rfl⟩
  | cons l ls ih =>
    simp only [preAll, bind_apply]
    have hl := pre_within (dbg := dbg) (t := t) (l := l) w
    cases hx : l.pre dbg t w with
    | ok u w1 =>
      rw [hx] at hl
      obtain ⟨p, hp, he, hr⟩ := ih w1
      refine ⟨l :: p, by simpa using hp, ?_, fun h => by rw [hr h]⟩
      simp only [he, show w1.log = _ from hl, List.map_cons, List.reverse_cons, List.append_assoc, List.singleton_append]
    | error e w1 =>
      rw [hx] at hl
      exact ⟨[l], by simp, by simpa [stateOf] using hl, fun h => by cases h⟩

theorem postAll_log {dbg : Bool} {t : K} (ls : List (Leaf K)) (w : World K) :
    ∃ p, p <+: ls ∧ (stateOf (postAll dbg t ls w)).log = (p.map (fun l => Event.post l.id t)).reverse ++ w.log ∧
      (returns (postAll dbg t ls w) = true → p = ls) := by
  induction ls generalizing w with
  | nil => exact ⟨[], by simp, by simp [postAll, stateOf], fun _ => rfl⟩
  | cons l ls ih =>
    simp only [postAll, bind_apply]
    have hl := post_within (dbg := dbg) (t := t) (l := l) w
    cases hx : l.post dbg t w with
    | ok u w1 =>
      rw [hx] at hl
      obtain ⟨p, hp, he, hr⟩ := ih w1
      refine ⟨l :: p, by simpa using hp, ?_, fun h => by rw [hr h]⟩
      simp only [he, show w1.log = _ from hl, List.map_cons, List.reverse_cons, List.append_assoc, List.singleton_append]
    | error e w1 =>
      rw [hx] at hl
      exact ⟨[l], by simp, by simpa [stateOf] using hl, fun h => by cases h⟩

theorem wrote_pre {dbg : Bool} {t : K} {b : Block K} {w w' : World K} (h : b.preStep dbg t w = .ok () w') :
    Wrote (b.leaves.map (fun l => Event.pre l.id t)) w w' := by
  rw [preStep_eq] at h
  obtain ⟨p, _, h1, h2⟩ := preAll_log (dbg := dbg) (t := t) b.leaves w
  rw [h] at h1 h2
  rw [h2 rfl] at h1
  exact h1

theorem wrote_post {dbg : Bool} {t : K} {b : Block K} {w w' : World K} (h : b.postStep dbg t w = .ok () w') :
    Wrote (b.leaves.map (fun l => Event.post l.id t)) w w' := by
  rw [postStep_eq] at h
  obtain ⟨p, _, h1, h2⟩ := postAll_log (dbg := dbg) (t := t) b.leaves w
  rw [h] at h1 h2
  rw [h2 rfl] at h1
  exact h1

variable {cfg : Config K}

theorem mid_of {α : Type} {x : MM K α} (hx : Moves (KeepMid cfg) x) {m m' : Machine K} {a : α} (hm : Mid cfg m) (h : x m = .ok a m') : Mid cfg m' := by
  have := hx m hm
  rw [h] at this
  exact this

theorem wrote_process (hp : cfg.model.Proper) {t : K} {pre post : Bool} {m m' : Machine K} (hm : Mid cfg m)
    (h : processModel cfg t pre post m = .ok () m') :
    ∃ es, Round cfg.model.leaves t pre post es ∧ Wrote es m.w m'.w := by
  obtain ⟨w1, w2, m3, h1, h2, h3, h4⟩ := processModel_ok h
  have hm2 : Mid cfg { m with w := w2 } := by
    have hi := mid_of ((covers_mid cfg).inputs t) hm (show inW (callInputs cfg t) m = .ok () { m with w := w1 } by simp only [inW, h1])
    cases pre with
    | false => simp only [Bool.false_eq_true, if_false] at h2; rw [h2]; exact hi
    | true =>
      simp only [if_true] at h2
      exact mid_of ((covers_mid cfg).pre t) hi (show inW _ _ = .ok () { m with w := w2 } by simp only [inW, h2])
  obtain ⟨acts, a1, a2, a3⟩ := eval_log cfg hp (mid_inv cfg hp hm2) t
  rw [h3] at a3
  have ha : Wrote (acts.map (fun l => Event.act l.id t)) w2 m3.w := a3
  have hpre : Wrote (if pre then cfg.model.leaves.map (fun l => Event.pre l.id t) else []) w1 w2 := by
    cases pre with
    | false => simp only [Bool.false_eq_true, if_false] at h2 ⊢; rw [h2]; exact .nil rfl
    | true => simp only [if_true] at h2 ⊢; exact wrote_pre h2
  have hpost : Wrote (if post then cfg.model.leaves.map (fun l => Event.post l.id t) else []) m3.w m'.w := by
    cases post with
    | false => simp only [Bool.false_eq_true, if_false] at h4 ⊢; rw [h4]; exact .nil rfl
    | true =>
      simp only [if_true] at h4 ⊢
      obtain ⟨w4, h5, h6⟩ := h4
      rw [h6]; exact wrote_post h5
  exact ⟨_, ⟨acts, a1, a2, rfl⟩, (((wrote_inputs h1).append hpre).append ha).append hpost⟩

theorem wrote_reset {x : List K} {m m' : Machine K} (h : resetWith cfg x m = .ok () m') : Wrote [] m.w m'.w := by
  obtain ⟨w1, w2, w3, d, h1, h2, h3, rfl⟩ := resetWith_ok h
  have a := wrote_clear h1
  have b := (moves_writeScalars (T := SameLog) cfg.dbg _ _ (fun _ _ _ _ => rfl)).sameLog h2
  have c := (moves_writeArrays (T := SameLog) cfg.dbg _ _ (fun _ _ _ _ => rfl)).sameLog h3
  exact (a.append b).append c

theorem wrote_machine {α : Type} {x : MM K α} (h : Moves (fun m m' : Machine K => SameLog m.w m'.w) x) {m m' : Machine K} {a : α}
    (hx : x m = .ok a m') : Wrote [] m.w m'.w := by
  have := h m
  rw [hx] at this
  exact .nil this

instance : PreO (fun m m' : Machine K => SameLog m.w m'.w) := ⟨fun _ => rfl, fun h h' => PreO.trans (T := SameLog) h h'⟩

theorem sameLog_inW {α : Type} {x : M K α} (h : Moves SameLog x) : Moves (fun m m' : Machine K => SameLog m.w m'.w) (inW x) := by
  intro m
  have := h m.w
  unfold inW
  cases hx : x m.w with
  | ok a w => rw [hx] at this; exact this
  | error e w => rw [hx] at this; exact this

theorem wrote_getStates {x : List K} {m m' : Machine K} (h : getStates cfg m = .ok x m') : Wrote [] m.w m'.w := by
  refine wrote_machine ?_ h
  unfold getStates
  refine Moves.bind Moves.getSim (fun s => Moves.bind (sameLog_inW (moves_readScalars _ _)) (fun a => Moves.bind (sameLog_inW (moves_readArrays _ _)) (fun b => ?_)))
  split
  · exact Moves.pure _
  · exact Moves.throw _

theorem wrote_getDerivs {x : List K} {m m' : Machine K} (h : getDerivs cfg m = .ok x m') : Wrote [] m.w m'.w := by
  refine wrote_machine ?_ h
  unfold getDerivs
  refine Moves.bind Moves.getSim (fun s => ?_)
  split
  · refine Moves.bind (sameLog_inW (moves_readScalars _ _)) (fun a => Moves.bind (sameLog_inW (moves_readArrays _ _)) (fun b => ?_))
    split
    · exact Moves.pure _
    · exact Moves.throw _
  · exact Moves.throw _

theorem wrote_begin {t : K} {x : List K} {m m' : Machine K} (h : beginStep cfg t m = .ok x m') :
    Wrote ([.input t] ++ cfg.model.leaves.map (fun l => Event.pre l.id t)) m.w m'.w := by
  obtain ⟨w1, w2, w3, h1, h2, h3, h4⟩ := beginStep_ok h
  have := (((wrote_clear h1).append (wrote_inputs h2)).append (wrote_pre h3)).append (wrote_getStates h4)
  simpa using this

theorem wrote_minor (hp : cfg.model.Proper) {t : K} {x r : List K} {m m' : Machine K} (hm : Mid cfg m) (h : minorCb cfg t x m = .ok r m') :
    ∃ es, Round cfg.model.leaves t false false es ∧ Wrote es m.w m'.w := by
  unfold minorCb at h
  obtain ⟨_, m1, h1, h2⟩ := ok_bind h
  obtain ⟨_, m2, h3, h4⟩ := ok_bind h2
  obtain ⟨es, g1, g2⟩ := wrote_process hp (mid_of ((covers_mid cfg).reset x) hm h1) h3
  exact ⟨es, g1, by simpa using ((wrote_reset h1).append g2).append (wrote_getDerivs h4)⟩

theorem wrote_exec (hp : cfg.model.Proper) {p : StepProg K} {r : List K × K} {m m' : Machine K} (hm : Mid cfg m)
    (h : p.exec (minorCb cfg) m = .ok r m') :
    ∃ stages : List (List (Event K)), (∀ s ∈ stages, ∃ u, Round cfg.model.leaves u false false s) ∧ Wrote stages.flatten m.w m'.w := by
  induction p generalizing m with
  | ret v nh => cases h; exact ⟨[], by simp, .nil rfl⟩
  | call t v k ih =>
    obtain ⟨a, m1, h1, h2⟩ := ok_bind h
    obtain ⟨es, g1, g2⟩ := wrote_minor hp hm h1
    obtain ⟨stages, g3, g4⟩ := ih a (mid_of ((covers_mid cfg).minorCb t v) hm h1) h2
    refine ⟨es :: stages, ?_, by rw [List.flatten_cons]; exact g2.append g4⟩
    intro s hs
    rcases List.mem_cons.1 hs with rfl | hs
    · exact ⟨t, g1⟩
    · exact g3 s hs

theorem wrote_record (m : Machine K) (e : Event K) : Wrote [e] m.w (m.record e).w := rfl

theorem mid_record {m : Machine K} (e : Event K) (h : Mid cfg m) : Mid cfg (m.record e) := .other _ h rfl rfl rfl

theorem mid_withSv {m : Machine K} (x : List K) (h : Mid cfg m) : Mid cfg (m.withSv x) := .other _ h rfl rfl rfl

theorem wrote_trial (hp : cfg.model.Proper) {t1 t2 : K} {r : List K × K} {m m' : Machine K} (hm : Mid cfg m) (h : Trial cfg t1 t2 m r m') :
    Mid cfg m' ∧ ∃ stages : List (List (Event K)), (∀ s ∈ stages, ∃ u, Round cfg.model.leaves u false false s) ∧
      Wrote ([.input t1] ++ cfg.model.leaves.map (fun l => Event.pre l.id t1) ++ [.trial t1 t2] ++ stages.flatten) m.w m'.w := by
  obtain ⟨orig, m1, st, h1, h2, h3⟩ := h.ex
  have hm1 := mid_record (.trial t1 t2) (mid_of ((covers_mid cfg).beginStep t1) hm h1)
  obtain ⟨stages, g1, g2⟩ := wrote_exec hp hm1 h3
  have := (covers_mid cfg).preo
  exact ⟨mid_of (Moves.exec (fun t v => (covers_mid cfg).minorCb t v) _) hm1 h3, stages, g1,
    ((wrote_begin h1).append (wrote_record m1 (.trial t1 t2))).append g2⟩

theorem wrote_sub (hp : cfg.model.Proper) {t minH maxH t1 t2 : K} {f : Bool} {m m' : Machine K} (hm : Mid cfg m)
    (h : SubRun cfg t minH maxH t1 t2 f m m') : Mid cfg m' ∧ ∃ es, StepCalls cfg.model.leaves t es ∧ Wrote es m.w m'.w := by
  induction h with
  | stop _ => exact ⟨hm, [], .done, .nil rfl⟩
  | @reject t1 t2 f m m2 m' r hlt ht hacc _ ih =>
    obtain ⟨hm2, stages, g1, g2⟩ := wrote_trial hp hm ht
    obtain ⟨i1, es, i2, i3⟩ := ih (mid_withSv r.1 hm2)
    exact ⟨i1, _, .reject g1 i2, g2.append i3⟩
  | @accept t1 t2 f m m2 m3 m' r hlt ht hacc hmid _ ih =>
    obtain ⟨hm2, stages, g1, g2⟩ := wrote_trial hp hm ht
    have hr : Mid cfg ((m2.withSv r.1).record (.accept t1 t2)) := mid_record _ (mid_withSv r.1 hm2)
    have : Mid cfg m3 ∧ ∃ mid, (if (t2 <. t) = true then Round cfg.model.leaves t2 false true mid else mid = []) ∧
        Wrote mid ((m2.withSv r.1).record (.accept t1 t2)).w m3.w := by
      unfold MidEval at hmid
      split at hmid
      · rename_i hc
        obtain ⟨m4, k1, k2⟩ := hmid
        have hm4 := mid_of ((covers_mid cfg).reset _) hr k1
        obtain ⟨es, k3, k4⟩ := wrote_process hp hm4 k2
        exact ⟨mid_of ((covers_mid cfg).processModel _ _ _) hm4 k2, es, by rw [if_pos hc]; exact k3, by simpa using (wrote_reset k1).append k4⟩
      · rename_i hc
        rw [hmid]
        exact ⟨hr, [], by rw [if_neg hc], .nil rfl⟩
    obtain ⟨hm3, mid, j1, j2⟩ := this
    obtain ⟨i1, es, i2, i3⟩ := ih hm3
    exact ⟨i1, _, .accept g1 j1 i2, ((g2.append (wrote_record (m2.withSv r.1) (.accept t1 t2))).append j2).append i3⟩

theorem wrote_final (hp : cfg.model.Proper) {t : K} {m m' : Machine K} (hm : Mid cfg m) (h : Final cfg t m m') :
    ∃ es, Round cfg.model.leaves t (decide (m.s.svSize = 0)) true es ∧ Wrote es m.w m'.w := by
  obtain ⟨x, m1, m2, h1, h2, h3, rfl⟩ := h.ex
  obtain ⟨es, g1, g2⟩ := wrote_process hp (mid_of ((covers_mid cfg).reset x) hm h2) h3
  refine ⟨es, ?_, by simpa using (wrote_reset h2).append g2⟩
  have : m.s.svSize = x.length := by simp [Sim.svSize, h1]
  rw [this]; exact g1

/-- Whatever the outcome of an evaluation, it recorded an initial part of a complete round. -/
theorem process_prefix (hp : cfg.model.Proper) {t : K} {m : Machine K} (hm : Mid cfg m) :
    ∃ es p, Round cfg.model.leaves t true true es ∧ p <+: es ∧ Wrote p m.w (stateOf (processModel cfg t true true m)).w := by
  have hround : ∀ acts : List (Leaf K), (∀ l ∈ acts, l ∈ cfg.model.leaves) → (acts.map Leaf.id).Nodup →
      Round cfg.model.leaves t true true ([.input t] ++ cfg.model.leaves.map (fun l => .pre l.id t) ++ acts.map (fun l => .act l.id t) ++
        cfg.model.leaves.map (fun l => .post l.id t)) := fun acts h1 h2 => ⟨acts, h1, h2, by simp⟩
  unfold processModel
  rw [bind_apply]
  have hin := inputs_log cfg t m.w
  cases h1 : callInputs cfg t m.w with
  | error e w1 =>
    rw [h1] at hin
    refine ⟨_, [.input t], hround [] (by simp) (by simp), by simp, ?_⟩
    simp only [inW, h1]
    exact hin
  | ok u w1 =>
    rw [h1] at hin
    have hin : Wrote [.input t] m.w w1 := hin
    have hm1 := mid_of ((covers_mid cfg).inputs t) hm (show inW (callInputs cfg t) m = .ok () { m with w := w1 } by simp only [inW, h1])
    simp only [inW, h1, if_true, bind_apply]
    obtain ⟨p, p1, p2, p3⟩ := preAll_log (dbg := cfg.dbg) (t := t) cfg.model.leaves w1
    rw [← preStep_eq] at p2 p3
    cases h2 : cfg.model.preStep cfg.dbg t w1 with
    | error e w2 =>
      rw [h2] at p2
      have p2 : Wrote (p.map (fun l => Event.pre l.id t)) w1 w2 := p2
      refine ⟨_, _, hround [] (by simp) (by simp), ?_, hin.append p2⟩
      simp only [List.map_nil, List.append_nil, List.append_assoc]
      exact (List.prefix_append_right_inj _).2 ((p1.map _).trans (List.prefix_append _ _))
    | ok u w2 =>
      rw [h2] at p2 p3
      have p3 := p3 rfl
      subst p3
      have p2 : Wrote (cfg.model.leaves.map (fun l => Event.pre l.id t)) w1 w2 := p2
      have hm2 := mid_of ((covers_mid cfg).pre t) hm1 (show inW (cfg.model.preStep cfg.dbg t) { m with w := w1 } = .ok () { m with w := w2 } by simp only [inW, h2])
      obtain ⟨acts, a1, a2, a3⟩ := eval_log cfg hp (mid_inv cfg hp hm2) t
      dsimp only
      cases h3 : evalModel cfg t { m with w := w2 } with
      | error e m3 =>
        rw [h3] at a3
        have a3 : Wrote (acts.map (fun l => Event.act l.id t)) w2 m3.w := a3
        exact ⟨_, _, hround acts a1 a2, List.prefix_append _ _, (hin.append p2).append a3⟩
      | ok u m3 =>
        rw [h3] at a3
        have a3 : Wrote (acts.map (fun l => Event.act l.id t)) w2 m3.w := a3
        obtain ⟨q, q1, q2, q3⟩ := postAll_log (dbg := cfg.dbg) (t := t) cfg.model.leaves m3.w
        rw [← postStep_eq] at q2
        have hq : Wrote (q.map (fun l => Event.post l.id t)) m3.w (stateOf (cfg.model.postStep cfg.dbg t m3.w)) := q2
        refine ⟨_, _, hround acts a1 a2, (List.prefix_append_right_inj _).2 (q1.map (fun l => Event.post l.id t)), ((hin.append p2).append a3).append ?_⟩
        dsimp only
        cases h4 : cfg.model.postStep cfg.dbg t m3.w with
        | ok u w4 => rw [h4] at hq; exact hq
        | error e w4 => rw [h4] at hq; exact hq

end Pooya
