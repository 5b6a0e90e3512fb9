import Verif.Proof.EvalLog
import Verif.Spec.Demo

/-! # C15 — a block executes at most once per evaluation

An evaluation starts with the call of the input functions; the record of calls (newest first) is
therefore cut into evaluations by its `input` entries. -/

namespace Pooya.C15

set_option linter.unusedSectionVars false

variable {K : Type} [Arith K]

/-- Activation functions run since the most recent call of the inputs. -/
def recent : List (Event K) → List BlkId
  | [] => []
  | .input _ :: _ => []
  | .act b _ :: r => b :: recent r
  | _ :: r => recent r

/-- Time of the most recent call of the inputs. -/
def lastInput : List (Event K) → Option K
  | [] => none
  | .input t :: _ => some t
  | _ :: r => lastInput r

/-- At no moment of the recorded history had a block run twice since the inputs were called. -/
def AtMostOnce (log : List (Event K)) : Prop := ∀ past, past <:+ log → (recent past).Nodup

/-- Every activation function is called with the time for which the inputs were called. -/
def RightTime (log : List (Event K)) : Prop :=
  ∀ b t past, Event.act b t :: past <:+ log → lastInput past = some t

/-! ### Proof -/

private def Good : List (Event K) → Prop
  | [] => True
  | .act b t :: r => b ∉ recent r ∧ lastInput r = some t ∧ Good r
  | _ :: r => Good r

private theorem Good.tail {e : Event K} {r : List (Event K)} (h : Good (e :: r)) : Good r := by
  cases e <;> simp only [Good] at h <;> first | exact h | exact h.2.2

private theorem Good.nodup {log : List (Event K)} (h : Good log) : (recent log).Nodup := by
  induction log with
  | nil => simp [recent]
  | cons e r ih =>
    have ht := ih h.tail
    cases e <;> simp only [recent] <;> try exact ht
    · exact List.nodup_nil
    · exact List.nodup_cons.2 ⟨h.1, ht⟩

private theorem Good.suffix {log past : List (Event K)} (h : Good log) (hs : past <:+ log) : Good past := by
  induction log with
  | nil => rw [List.suffix_nil] at hs; subst hs; exact h
  | cons e r ih =>
    rcases List.suffix_cons_iff.1 hs with rfl | hs
    · exact h
    · exact ih h.tail hs

private theorem Good.quiet {evs log : List (Event K)} (hq : ∀ e ∈ evs, e.isQuiet = true) (h : Good log) :
    Good (evs ++ log) ∧ recent (evs ++ log) = recent log ∧ lastInput (evs ++ log) = lastInput log := by
  induction evs with
  | nil => exact ⟨h, rfl, rfl⟩
  | cons e r ih =>
    obtain ⟨h1, h2, h3⟩ := ih (fun e he => hq e (by simp [he]))
    have := hq e (by simp)
    cases e <;> simp_all [Event.isQuiet, Good, recent, lastInput]

private theorem Good.acts {log : List (Event K)} {t : K} (h : Good log) (hr : recent log = []) (hl : lastInput log = some t)
    (ids : List BlkId) (hn : ids.Nodup) :
    Good (ids.map (fun b => Event.act b t) ++ log) ∧ recent (ids.map (fun b => Event.act b t) ++ log) = ids ∧
      lastInput (ids.map (fun b => Event.act b t) ++ log) = some t := by
  induction ids with
  | nil => exact ⟨h, hr, hl⟩
  | cons b r ih =>
    obtain ⟨hb, hn⟩ := List.nodup_cons.1 hn
    obtain ⟨h1, h2, h3⟩ := ih hn
    simp only [List.map_cons, List.cons_append, Good, recent, lastInput, h1, h2, h3, and_true]
    exact hb

private def GI (cfg : Config K) (m : Machine K) : Prop := OrderInv cfg m ∧ Good m.w.log

private def Keep (cfg : Config K) (m m' : Machine K) : Prop := GI cfg m → GI cfg m'

private instance (cfg : Config K) : PreO (Keep cfg) := ⟨fun _ h => h, fun h h' hi => h' (h hi)⟩

/-- Effects that keep the orders and record nothing that matters. -/
private theorem keep_of {cfg : Config K} {α : Type} {x : MM K α} (h1 : Moves (KeepInv cfg) x)
    (h2 : ∀ m, Logs (fun e : Event K => e.isQuiet = true) m.w (stateOf (x m)).w) : Moves (Keep cfg) x := by
  rintro m ⟨hi, hg⟩
  obtain ⟨evs, he, hq⟩ := h2 m
  exact ⟨h1 m hi, by rw [he]; exact (Good.quiet hq hg).1⟩

private theorem keep_inWq {cfg : Config K} {α : Type} {x : M K α} (h1 : Moves SameDone x)
    (h2 : Moves (Logs (fun e : Event K => e.isQuiet = true)) x) : Moves (Keep cfg) (inW x) := by
  refine keep_of ((keep_inW h1).mono (fun _ _ hk hi => hi.keep hk)) ?_
  intro m
  exact (h2.inW m).1

private theorem sameLog_quiet {α : Type} {x : M K α} (h : Moves SameLog x) :
    Moves (Logs (fun e : Event K => e.isQuiet = true)) x :=
  h.mono (fun _ _ e => ⟨[], e, by simp⟩)

private theorem keep_inputs (cfg : Config K) (t : K) : Moves (Keep cfg) (inW (callInputs cfg t)) := by
  rintro m ⟨hi, hg⟩
  refine ⟨hi.keep (keep_inW (done_inputs cfg t) m), ?_⟩
  have h := inputs_log cfg t m.w
  simp only [inW]
  cases hx : callInputs cfg t m.w with
  | ok u w => rw [hx] at h; simp only [stateOf] at h ⊢; rw [h]; exact hg
  | error e w => rw [hx] at h; simp only [stateOf] at h ⊢; rw [h]; exact hg

private theorem keep_setSim {cfg : Config K} {f : Sim K → Sim K} (h : ∀ s, (f s).po = s.po ∧ (f s).fast = s.fast) :
    Moves (Keep cfg) (setSim f) :=
  keep_of ((Pooya.keep_setSim h).mono (fun _ _ hk hi => hi.keep hk)) (fun _ => ⟨[], rfl, by simp⟩)

private theorem keep_reset (cfg : Config K) (x : List K) : Moves (Keep cfg) (resetWith cfg x) := by
  unfold resetWith
  exact Moves.bind Moves.getSim (fun s => Moves.bind
    (keep_inWq (moves_clearAll _ (fun _ _ _ => rfl)) (sameLog_quiet (moves_clearAll _ (fun _ _ _ => rfl))))
    (fun _ => Moves.bind
      (keep_inWq (moves_writeScalars _ _ _ (fun _ _ _ _ => rfl)) (sameLog_quiet (moves_writeScalars _ _ _ (fun _ _ _ _ => rfl))))
      (fun d => keep_inWq (moves_writeArrays _ _ _ (fun _ _ _ _ => rfl)) (sameLog_quiet (moves_writeArrays _ _ _ (fun _ _ _ _ => rfl))))))

/-- After the inputs: nothing has run yet. -/
private def Ready (t : K) (log : List (Event K)) : Prop := Good log ∧ recent log = [] ∧ lastInput log = some t

/-- Everything after the inputs. -/
private theorem keep_rest (cfg : Config K) (hp : cfg.model.Proper) (t : K) (pre post : Bool) (m : Machine K)
    (hi : OrderInv cfg m) (hg : Ready t m.w.log) :
    Good (stateOf ((do
      if pre then inW (cfg.model.preStep cfg.dbg t) else pure ()
      evalModel cfg t
      if post then inW (cfg.model.postStep cfg.dbg t) else pure () : MM K Unit) m)).w.log := by
  have h3 : ∀ m : Machine K, Good m.w.log →
      Good (stateOf ((if post then inW (cfg.model.postStep cfg.dbg t) else pure () : MM K Unit) m)).w.log := by
    intro m hg
    split
    · obtain ⟨evs, he, hq⟩ := ((quiet_post cfg.dbg t cfg.model).inW m).1
      rw [he]; exact (Good.quiet hq hg).1
    · exact hg
  have h2 : ∀ m : Machine K, OrderInv cfg m → Ready t m.w.log → Good (stateOf ((do
      evalModel cfg t
      if post then inW (cfg.model.postStep cfg.dbg t) else pure () : MM K Unit) m)).w.log := by
    intro m hi hg
    obtain ⟨ls, _, hn, he⟩ := eval_log cfg hp hi t
    have hgood : Good (stateOf (evalModel cfg t m)).w.log := by
      rw [he]
      have := (Good.acts hg.1 hg.2.1 hg.2.2 (ls.map Leaf.id).reverse (List.nodup_reverse.2 hn)).1
      rw [List.map_reverse, List.map_map] at this
      exact this
    rw [bind_apply]
    cases hx : evalModel cfg t m with
    | ok u m' => rw [hx] at hgood; exact h3 m' hgood
    | error e m' => rw [hx] at hgood; exact hgood
  dsimp only
  split
  · rw [bind_apply]
    obtain ⟨evs, he, hq⟩ := ((quiet_pre cfg.dbg t cfg.model).inW m).1
    have hk := (keep_inW (done_pre cfg.dbg t cfg.model)) m
    obtain ⟨g1, g2, g3⟩ := Good.quiet hq hg.1
    rw [← he] at g1 g2 g3
    cases hx : inW (cfg.model.preStep cfg.dbg t) m with
    | ok u m' =>
      rw [hx] at g1 g2 g3 hk
      exact h2 m' (hi.keep hk) ⟨g1, g2.trans hg.2.1, g3.trans hg.2.2⟩
    | error e m' => rw [hx] at g1; exact g1
  · exact h2 m hi hg

private theorem keep_process (cfg : Config K) (hp : cfg.model.Proper) (t : K) (pre post : Bool) :
    Moves (Keep cfg) (processModel cfg t pre post) := by
  rintro m ⟨hi, hg⟩
  refine ⟨(covers_inv cfg hp).processModel t pre post m hi, ?_⟩
  have hin := keep_inputs cfg t m ⟨hi, hg⟩
  have hl := inputs_log cfg t m.w
  unfold processModel
  rw [bind_apply]
  have hw : (stateOf (inW (callInputs cfg t) m)).w.log = .input t :: m.w.log := by
    rw [← hl]; simp only [inW]; cases callInputs cfg t m.w <;> rfl
  cases hx : inW (callInputs cfg t) m with
  | error e m' => rw [hx] at hin; exact hin.2
  | ok u m' =>
    rw [hx] at hin hw
    simp only [stateOf] at hw
    exact keep_rest cfg hp t pre post m' hin.1 ⟨by rw [hw]; exact hg, by rw [hw]; rfl, by rw [hw]; rfl⟩

private theorem covers (cfg : Config K) (hp : cfg.model.Proper) : Covers cfg (Keep cfg) where
  preo := inferInstance
  inputs t := keep_inputs cfg t
  pre t := keep_inWq (done_pre _ t _) (quiet_pre _ t _)
  processModel t pre post := keep_process cfg hp t pre post
  reset x := keep_reset cfg x
  clear := Moves.bind Moves.getSim (fun _ => keep_inWq (moves_clearAll _ (fun _ _ _ => rfl))
    (sameLog_quiet (moves_clearAll _ (fun _ _ _ => rfl))))
  readS ss := keep_inWq (moves_readScalars _ ss) (sameLog_quiet (moves_readScalars _ ss))
  readA ss := keep_inWq (moves_readArrays _ ss) (sameLog_quiet (moves_readArrays _ ss))
  sv _ := keep_setSim (fun _ => ⟨rfl, rfl⟩)
  trial _ _ := keep_inWq (moves_emit _ (fun _ => rfl)) (moves_emit _ (fun _ => ⟨[_], rfl, by simp [Event.isQuiet]⟩))
  accept _ _ := keep_inWq (moves_emit _ (fun _ => rfl)) (moves_emit _ (fun _ => ⟨[_], rfl, by simp [Event.isQuiet]⟩))
  warn _ := keep_inWq (moves_emit _ (fun _ => rfl)) (moves_emit _ (fun _ => ⟨[_], rfl, by simp [Event.isQuiet]⟩))
  time _ := keep_setSim (fun _ => ⟨rfl, rfl⟩)

private theorem keep_baseInit (cfg : Config K) (t : K) : Moves (Keep cfg) (baseInit cfg t) := by
  unfold baseInit
  refine Moves.bind Moves.get (fun m => ?_)
  dsimp only
  refine Moves.bind (keep_setSim (fun _ => ⟨rfl, rfl⟩)) (fun _ => ?_)
  have h2 : Moves (Keep cfg) (do
      let s ← getSim
      inW (clearAll s.valueSigs)
      setSim (fun s : Sim K => { s with initialized := true }) : MM K Unit) :=
    Moves.bind Moves.getSim (fun _ => Moves.bind (keep_inWq (moves_clearAll _ (fun _ _ _ => rfl))
      (sameLog_quiet (moves_clearAll _ (fun _ _ _ => rfl)))) (fun _ => keep_setSim (fun _ => ⟨rfl, rfl⟩)))
  split
  · exact Moves.bind (keep_inWq (moves_emit _ (fun _ => rfl)) (moves_emit _ (fun _ => ⟨[_], rfl, by simp [Event.isQuiet]⟩)))
      (fun _ => h2)
  · exact h2

/-- The ordering pass of `FastSimulator::init` records activations of different leaves. -/
private theorem fastOrder_log (cfg : Config K) (hp : cfg.model.Proper) (t : K) (w : World K) :
    ∃ ids : List BlkId, ids.Nodup ∧
      (stateOf (fastOrder cfg.dbg t cfg.model.leaves (cfg.model.leaves.length + 1) w)).log =
        ids.map (fun b => Event.act b t) ++ w.log := by
  have hI : ∀ l ∈ cfg.model.leaves, cfg.model.leafId l.id := fun l hl => List.mem_map_of_mem hl
  have h := fastOrder_completes (dbg := cfg.dbg) (t := t) (I := cfg.model.leafId) cfg.model.leaves hp.leafNodup
    hI (Nat.lt_succ_self _) w
  unfold Completes Evals at h
  cases hx : fastOrder cfg.dbg t cfg.model.leaves (cfg.model.leaves.length + 1) w with
  | ok r w' =>
    rw [hx] at h
    obtain ⟨ls, h1, h2, _⟩ := h
    have hb := h2.basic (fun l hl => hI l (h1 l hl))
    refine ⟨(ls.map Leaf.id).reverse, List.nodup_reverse.2 hb.nodup, ?_⟩
    simp only [stateOf]
    rw [hb.log, List.map_reverse, List.map_map]; rfl
  | error e w' =>
    rw [hx] at h
    obtain ⟨ls, wm, h1, h2, h3⟩ := h
    obtain ⟨ls', _, g2, g3⟩ := failing_ids hI h1 h2 h3
    refine ⟨(ls'.map Leaf.id).reverse, List.nodup_reverse.2 g2, ?_⟩
    simp only [stateOf]
    rw [g3, List.map_reverse, List.map_map]; rfl

private theorem keep_simInit (cfg : Config K) (hp : cfg.model.Proper) (t : K) : Moves (Keep cfg) (simInit cfg t) := by
  have hc := covers cfg hp
  intro m hgi
  refine ⟨inv_simInit cfg hp t m hgi.1, ?_⟩
  unfold simInit
  rw [bind_apply]
  have hb := keep_baseInit cfg t m hgi
  cases hx : baseInit cfg t m with
  | error e m' => rw [hx] at hb; exact hb.2
  | ok u m' =>
    rw [hx] at hb
    simp only [stateOf] at hb
    cases hs : cfg.strategy with
    | plain => exact (hc.processModel t true true m' hb).2
    | reuse =>
      have : Moves (Keep cfg) (do
          debugVerify cfg.dbg m'.s.po.isNone .debugVerify
          setSim (fun s => { s with po := some cfg.model.all })
          processModel cfg t true true) := by
        refine Moves.bind (Moves.debugVerify _ _ _) (fun _ => Moves.bind ?_ (fun _ => hc.processModel t true true))
        rintro m ⟨hi, hg⟩
        refine ⟨⟨?_, ?_, ?_, hi.fastSub, hi.fastNodup, (fun e => by rw [hs] at e; cases e), hi.fastNil⟩, hg⟩
        · intro po h; cases h; exact hp
        · intro po h; cases h; exact fun b hb => hb
        · intro po h; cases h; exact fun b hb _ => hb
      simp only [bind_apply (x := getSim), getSim]
      split
      · exact (this m' hb).2
      · exact (hc.processModel t true true m' hb).2
    | fast =>
      simp only [bind_apply (x := getSim), getSim]
      rw [bind_apply]
      simp only [debugVerify]
      split
      next heq =>
        split at heq
        · cases heq
        · cases heq
          rw [bind_apply]
          have hin := keep_inputs cfg t m' hb
          have hl := inputs_log cfg t m'.w
          have hw : (stateOf (inW (callInputs cfg t) m')).w.log = .input t :: m'.w.log := by
            rw [← hl]; simp only [inW]; cases callInputs cfg t m'.w <;> rfl
          cases hy : inW (callInputs cfg t) m' with
          | error e m2 => rw [hy] at hin; exact hin.2
          | ok u m2 =>
            rw [hy] at hin hw
            simp only [stateOf] at hin hw
            dsimp only
            rw [bind_apply]
            obtain ⟨evs, he, hq⟩ := ((quiet_pre cfg.dbg t cfg.model).inW m2).1
            have hk := (keep_inW (done_pre cfg.dbg t cfg.model)) m2
            obtain ⟨g1, g2, g3⟩ := Good.quiet hq hin.2
            rw [← he] at g1 g2 g3
            cases hz : inW (cfg.model.preStep cfg.dbg t) m2 with
            | error e m3 => rw [hz] at g1; exact g1
            | ok u m3 =>
              rw [hz] at g1 g2 g3 hk
              simp only [stateOf] at g1 g2 g3 hk
              rw [hw] at g2 g3
              dsimp only
              rw [bind_apply]
              obtain ⟨ids, hn, hf⟩ := fastOrder_log cfg hp t m3.w
              have g4 := (Good.acts g1 g2 g3 ids hn).1
              rw [← hf] at g4
              have hinv := inv_fastOrder cfg hp hs t (hin.1.keep hk)
              simp only [levels] at hinv ⊢
              cases hq : fastOrder cfg.dbg t cfg.model.leaves (cfg.model.leaves.length + 1) m3.w with
              | error e w4 => rw [hq] at g4; exact g4
              | ok r w4 =>
                rw [hq] at g4 hinv
                have hrest : Moves (Keep cfg) (do
                    inW (clearAll m'.s.valueSigs)
                    processModel cfg t true true) :=
                  Moves.bind (keep_inWq (moves_clearAll _ (fun _ _ _ => rfl))
                    (sameLog_quiet (moves_clearAll _ (fun _ _ _ => rfl)))) (fun _ => hc.processModel t true true)
                simp only [bind_apply, setSim]
                split
                · exact g4
                · exact (hrest _ ⟨hinv, g4⟩).2
      next heq =>
        split at heq
        · cases heq; exact hb.2
        · cases heq

private theorem reach_good (cfg : Config K) (hp : cfg.model.Proper) {m : Machine K} (h : Reach cfg m) : GI cfg m := by
  induction h with
  | new w t hd hl =>
    exact ⟨reach_inv cfg hp (.new w t hd hl), by show Good w.log; rw [hl]; trivial⟩
  | call c _ ih =>
    cases c with
    | init t => exact keep_simInit cfg hp t _ ih
    | run fuel t minH maxH =>
      rename_i m _
      cases hi : m.s.initialized with
      | true => exact (covers cfg hp).run fuel t minH maxH m hi ih
      | false =>
        have e : Call.exec cfg (.run fuel t minH maxH) m = simInit cfg t m := by
          simp only [Call.exec, run, bind_apply, getSim, hi, Bool.not_false, if_true]
        rw [e]
        exact keep_simInit cfg hp t _ ih
  | user sig _ ih => exact ⟨ih.1.keep ⟨rfl, rfl, rfl⟩, ih.2⟩

/-! ### The property -/

/-- In every reachable state, for every strategy: no block ran twice within one evaluation.  This
includes evaluations cut short by an exception, minor solver stages and the ordering pass of
`FastSimulator::init`. -/
theorem C15_at_most_once (cfg : Config K) (hp : cfg.model.Proper) {m : Machine K} (h : Reach cfg m) :
    AtMostOnce m.w.log := fun _ hs => ((reach_good cfg hp h).2.suffix hs).nodup

/-- Within one evaluation all activation functions get the time the inputs got. -/
theorem C15_right_time (cfg : Config K) (hp : cfg.model.Proper) {m : Machine K} (h : Reach cfg m) :
    RightTime m.w.log := fun _ _ _ hs => ((reach_good cfg hp h).2.suffix hs).2.1

/-- The hypotheses hold in a state in which all four blocks have just run. -/
example : (Demo.cfg .fast).model.Proper ∧ Reach (Demo.cfg .fast) (Demo.after .fast) ∧
    recent (Demo.after .fast).w.log = [1, 2, 4, 3] :=
  ⟨Demo.proper _, Demo.reach _, by decide +kernel⟩

/-- The specification does not hold of arbitrary records. -/
example : ¬ AtMostOnce ([.act 1 0, .act 1 0, .input 0] : List (Event ℚ)) := by
  intro h; exact absurd (h _ (List.suffix_refl _)) (by decide)

end Pooya.C15
