import Verif.Spec.Pace
import Verif.Props.C69

/-! Calls of `run` follow the step size control. -/

namespace Pooya

set_option linter.unusedSectionVars false

variable {K : Type} [Arith K] {cfg : Config K}

theorem suits_iff {minH t1 t2 q : K} {f : Bool} : Suits minH t1 t2 f q ↔ accepts minH t1 t2 f q = true := by
  unfold Suits accepts
  simp only [Bool.or_eq_true, or_assoc]

theorem subrun_adapts (ho : Owned cfg) (hd : cfg.dbg = true) (hdim : ∀ st, cfg.stepper = some st → Stepper.Dim st) {V : Vars} {st : Stepper K}
    (hst : cfg.stepper = some st) {t minH maxH t1 t2 : K} {f : Bool} {m m1 m' : Machine K} (h : SubRun cfg t minH maxH t1 t2 f m m1)
    (hf : Final cfg t m1 m') {mem : BlkId → Mem K} {x : List K} {L : List (Event K)} {es : List (StepEv K)} (hc : Course cfg V mem m)
    (hs : cfg.Stands V mem x) (h0 : 0 < m.s.nState) (ha : After L es m) (hlt : (t1 <. t) = true) :
    ∃ (es' : List (StepEv K)) (y : List K), After L (es ++ es') m' ∧ Adapts cfg V st minH maxH t mem t1 t2 f x es' y m'.w.shown m'.w.mem ∧ cfg.Stands V m'.w.mem y := by
  induction h generalizing mem x es with
  | stop h => rw [hlt] at h; cases h
  | @reject t1 t2 f m m2 m1 r h1 h2 h3 h4 ih =>
    obtain ⟨c1, c2, c3, st', e, hby⟩ := hc.trial ho hd hdim hs h2
    rw [hst] at e
    cases e
    have a1 := ha.trial h2
    have a2 : After L (es ++ [.trial t1 t2]) (m2.withSv r.1) := a1
    obtain ⟨es', y, i1, i2, i3⟩ := ih hf (c1.withSv (by rw [c3, c2])) hs (by rw [show (m2.withSv r.1).s.nState = m2.s.nState from rfl, c2]; exact h0) a2 hlt
    refine ⟨.trial t1 t2 :: es', y, ?_, ?_, i3⟩
    · rw [← List.append_cons] at i1; exact i1
    · exact .reject hlt hby (fun hs => by rw [suits_iff.1 hs] at h3; cases h3) i2
  | @accept t1 t2 f m m2 m3 m1 r h1 h2 h3 h4 h5 ih =>
    obtain ⟨c1, c2, c3, st', e, hby⟩ := hc.trial ho hd hdim hs h2
    rw [hst] at e
    cases e
    have a1 := ha.trial h2
    have a1 : After L (es ++ [.trial t1 t2]) (m2.withSv r.1) := a1
    have a2 : After L ((es ++ [.trial t1 t2]) ++ [.accept t1 t2]) ((m2.withSv r.1).record (.accept t1 t2)) := a1.step (e := .accept t1 t2) rfl
    have c4 : Course cfg V mem ((m2.withSv r.1).record (.accept t1 t2)) := (c1.withSv (by rw [c3, c2])).record
    have hn4 : ((m2.withSv r.1).record (.accept t1 t2)).s.nState = m.s.nState := c2
    unfold MidEval at h4
    by_cases hu : (t2 <. t) = true
    · rw [if_pos hu] at h4
      obtain ⟨m4, g1, g2⟩ := h4
      obtain ⟨k1, k2, k3, k4⟩ := c4.commit ho hd (by rw [c3, hn4]) g1 g2
      have a3 := (a2.move ((covers_noStep cfg).reset _) g1).move ((covers_noStep cfg).processModel _ _ _) g2
      obtain ⟨es', y, i1, i2, i3⟩ := ih hf k1 k4 (by rw [k2, hn4]; exact h0) a3 hu
      refine ⟨.trial t1 t2 :: .accept t1 t2 :: es', y, ?_, ?_, i3⟩
      · simpa using i1
      · exact .step hlt hby (suits_iff.2 h3) hu k3 i2
    · rw [if_neg hu] at h4
      subst h4
      have hu : (t2 <. t) = false := by simpa using hu
      clear ih
      generalize fmin (t2 +. fmax minH (fmin r.2 maxH)) t = u' at h5
      generalize hg : (m2.withSv r.1).record (.accept t1 t2) = m3 at h5
      cases h5 with
      | stop _ =>
        subst hg
        obtain ⟨x', ma, mb, f1, f2, f3, f4⟩ := hf.ex
        cases f1
        rw [show decide (r.1.length = 0) = false from decide_eq_false (by rw [c3]; omega)] at f3
        obtain ⟨k1, k2, k3, k4⟩ := c4.commit ho hd (by rw [c3, hn4]) f2 f3
        have a3 := (a2.move ((covers_noStep cfg).reset _) f2).move ((covers_noStep cfg).processModel _ _ _) f3
        subst f4
        refine ⟨[.trial t1 t2, .accept t1 t2], r.1, ?_, ?_, k4⟩
        · have a4 : After L (es ++ [.trial t1 t2, .accept t1 t2]) mb := by simpa using a3
          exact a4
        · exact .last hlt hby (suits_iff.2 h3) hu k3
      | reject g1 _ _ _ => rw [hu] at g1; cases g1
      | accept g1 _ _ _ _ => rw [hu] at g1; cases g1

namespace C69
open C60

variable {ps : List (Wire K)} {ty : SigId → Ty} {rank : BlkId → Nat} {V : Vars} {n : Nat} {t u minH maxH : K} {x : List K} {m m' : Machine K}

/-- A call of `run` to a later time. -/
theorem run_adapts (hd : cfg.dbg = true) (ho : Owned cfg) (st : Stepper K) (hst : cfg.stepper = some st) (hdim : Stepper.Dim st)
    (hc : ∀ l ∈ cfg.model.leaves, l.Calm) (hm : Ongoing cfg m) (h0 : 0 < m.s.nState) {fuel : Nat}
    (hlt : (m.s.tPrev <. t) = true) (hne : (t ==. m.s.tPrev) = false) (hx : run cfg fuel t minH maxH m = .ok () m') :
    ∃ (new : List (Event K)) (x y : List K), m'.w.log = new ++ m.w.log ∧ cfg.Stands m.vars m.w.mem x ∧
      Adapts cfg m.vars st minH maxH t m.w.mem m.s.tPrev t false x (stepsIn new) y m'.w.shown m'.w.mem ∧ cfg.Stands m.vars m'.w.mem y := by
  have hdim' : ∀ st', cfg.stepper = some st' → Stepper.Dim st' := fun st' e => by rw [hst] at e; cases e; exact hdim
  have hco := hm.course ho hd hdim' hc
  obtain ⟨_, hi⟩ := hm.once
  rcases run_ok hi hx with ⟨e, _⟩ | ⟨_, m1, ha, hf⟩
  · rw [hco.ready.sized.1] at e; omega
  cases ha with
  | again _ e _ => rw [hne] at e; cases e
  | steps _ _ hs =>
    have hx0 : ∃ x, cfg.Stands m.vars m.w.mem x := by
      have key : ∀ {t2 : K} {r : List K × K} {m2 : Machine K}, Trial cfg m.s.tPrev t2 m r m2 → ∃ x, cfg.Stands m.vars m.w.mem x := by
        intro t2 r m2 ht
        obtain ⟨orig, ma, _, h1, _, _⟩ := ht.ex
        exact hco.start ho h1
      cases hs with
      | stop e => rw [hlt] at e; cases e
      | reject _ h1 _ _ => exact key h1
      | accept _ h1 _ _ _ => exact key h1
    obtain ⟨x, hx0⟩ := hx0
    obtain ⟨es, y, a1, a2, a3⟩ := subrun_adapts ho hd hdim' hst hs hf hco hx0 h0 (After.refl m) hlt
    obtain ⟨new, b1, b2⟩ := a1
    exact ⟨new, x, y, b1, hx0, b2 ▸ a2, a3⟩

/-- A call of `run` without state variables tries no steps. -/
theorem sampled_log (h : cfg.WellPosed ty rank) (hc : ∀ l ∈ cfg.model.leaves, l.Calm) (hm : Mark cfg ty V 0 t x m) {fuel : Nat}
    (hx : Call.exec cfg (.run fuel u minH maxH) m = .ok () m') : ∃ new, m'.w.log = new ++ m.w.log ∧ stepsIn new = [] := by
  have hi := hm.ongoing.once.2
  have hco := hm.ongoing.course (owned_of h) h.typed.dbg h.typed.stepper hc
  have hx : run cfg fuel u minH maxH m = .ok () m' := hx
  rcases run_ok hi hx with ⟨_, hf⟩ | ⟨e, _⟩
  · obtain ⟨y, m1, m2, f1, f2, f3, rfl⟩ := hf.ex
    have : After m.w.log [] m2 := ((After.refl m).move ((covers_noStep cfg).reset _) f2).move ((covers_noStep cfg).processModel _ _ _) f3
    exact this
  · rw [hco.ready.sized.1, hm.nState] at e; omega

theorem Mark.paces [LT K] (h : cfg.WellPosed ty rank) (ho : cfg.Delays → OrderedArith K) (hc : ∀ l ∈ cfg.model.leaves, l.Calm) (hn : 0 < n → cfg.stepper ≠ none)
    (hm : Mark cfg ty V n t x m) {fuel : Nat} (hfair : (Call.run fuel u minH maxH).Fair cfg m) (hlt : (t <. u) = true) (hne : (u ==. t) = false)
    (hx : Call.exec cfg (.run fuel u minH maxH) m = .ok () m') :
    ∃ y new, m'.w.log = new ++ m.w.log ∧ Mark cfg ty V n u y m' ∧ ∀ ts es c, Paces cfg V minH maxH (snap m' y) ts es c → Paces cfg V minH maxH (snap m x) (u :: ts) (stepsIn new ++ es) c := by
  have hi := hm.ongoing.once.2
  have hfx := fixed_run hi hx
  have hvars : m'.vars = V := (vars_fixed hfx).trans hm.vars
  have hat : Attended cfg ty m' := .call _ hm.attended hfair hx
  have htime := runs_call h ho (attended_cared h ho hm.attended) _ hfair
  rw [hx] at htime
  have hon : Ongoing cfg m' := .run _ _ _ _ hm.ongoing hx
  have htp : m'.s.tPrev = u := htime.2.2.1
  rcases Nat.eq_zero_or_pos n with rfl | hpos
  · obtain ⟨k1, k2⟩ := sampled h ho hc hm hx
    obtain ⟨new, l1, l2⟩ := sampled_log h hc hm hx
    have hst : cfg.Stands V m'.w.mem [] := (packed_nil k1).2 rfl
    refine ⟨[], new, l1, ⟨hat, hon, hvars, hfx.nState.trans hm.nState, htp, hst⟩, fun ts es c hp => ?_⟩
    have := Paces.sample (a := snap m x) (b := snap m' []) k1 (by show Committed cfg V m.w.mem m'.s.tPrev [] _ _; rw [htp]; exact k2) hp
    rw [show (snap m' []).time = u from htp] at this
    rw [l2]
    exact this
  · obtain ⟨st, hst⟩ := Option.ne_none_iff_exists'.1 (hn hpos)
    have hco := hm.ongoing.course (owned_of h) h.typed.dbg h.typed.stepper hc
    obtain ⟨new, x1, y, g1, g2, g3, g4⟩ := run_adapts h.typed.dbg (owned_of h) st hst (h.typed.stepper st hst) hc hm.ongoing (by rw [hm.nState]; exact hpos)
      (t := u) (by rw [hm.time]; exact hlt) (by rw [hm.time]; exact hne) hx
    rw [hm.vars] at g2 g3 g4
    have hx1 : x1 = x := packed_unique g2 hm.stands (fun _ _ => rfl)
    subst hx1
    refine ⟨y, new, g1, ⟨hat, hon, hvars, hfx.nState.trans hm.nState, htp, g4⟩, fun ts es c hp => ?_⟩
    have hne : V.scalars ++ V.arrays ≠ [] := by
      rw [← hm.vars]; exact vars_ne h hco.ready.layout (by rw [hm.nState]; exact hpos)
    have := Paces.steps (a := snap m x1) (b := snap m' y) (es := stepsIn new) hne hst
      (by show Adapts cfg V st minH maxH m'.s.tPrev _ m.s.tPrev m'.s.tPrev false x1 _ _ _ _; rw [htp]; exact g3) hp
    rw [show (snap m' y).time = u from htp] at this
    exact this

theorem Mark.paced [LT K] (h : cfg.WellPosed ty rank) (ho : cfg.Delays → OrderedArith K) (hc : ∀ l ∈ cfg.model.leaves, l.Calm) (hn : 0 < n → cfg.stepper ≠ none)
    (ts : List K) : ∀ {t : K} {x : List K} {m : Machine K}, (t :: ts).IsChain (Onward cfg ty minH maxH) → Mark cfg ty V n t x m → ∀ m', RunsTo cfg minH maxH m ts m' →
      ∃ y new, m'.w.log = new ++ m.w.log ∧ Paces cfg V minH maxH (snap m x) ts (stepsIn new) (snap m' y) := by
  induction ts with
  | nil =>
    intro t x m _ hm m' hr
    cases hr
    exact ⟨x, [], rfl, .nil⟩
  | cons u us ih =>
    intro t x m hp hm m' hr
    obtain ⟨hu, hp'⟩ := List.isChain_cons_cons.1 hp
    cases hr with
    | cons fuel g1 g2 =>
      obtain ⟨y, new, e1, k1, k2⟩ := Mark.paces h ho hc hn hm (hu.fair _ _ _ _ hm fuel) hu.lt hu.ne g1
      obtain ⟨z, new', e2, k3⟩ := ih hp' k1 m' g2
      refine ⟨z, new' ++ new, by rw [e2, e1, List.append_assoc], ?_⟩
      rw [stepsIn_append]
      exact k2 _ _ _ k3

end C69

end Pooya
