import Verif.Proof.Clear
import Verif.Proof.Twin
import Verif.Spec.Demo

/-! C24: every evaluation starts afresh. -/

namespace Pooya.C24

set_option linter.unusedSectionVars false

variable {K : Type} [Arith K]

/-- Two states of a diagram that differ only in the signals in `D`: there assignment and value may be
anything.  Outside `D` the same signals are assigned, to the same values. -/
structure SameUpTo (D : SigId → Prop) (w1 w2 : World K) : Prop where
  ty : ∀ s, (w1.sig s).ty = (w2.sig s).ty
  assigned : ∀ s, ¬ D s → (w1.sig s).assigned = (w2.sig s).assigned
  value : ∀ s, ¬ D s → (w1.sig s).assigned = true → (w1.sig s).value = (w2.sig s).value
  mem : w1.mem = w2.mem
  done : w1.done = w2.done
  log : w1.log = w2.log

/-- The same for an observer. -/
abbrev Equal (w1 w2 : World K) : Prop := SameUpTo (fun _ => False) w1 w2

private theorem prims : TwinPrims (K := K) false Equal true true where
  mode := Or.inl rfl
  tys w1 w2 h := h.ty
  asgs w1 w2 h := fun s => h.assigned s id
  dones w1 w2 h := h.done
  getv s := by
    intro w1 w2 h
    have ha := h.assigned s id
    have hv := h.value s id
    simp only [getv, Bool.true_and]
    rw [← ha]
    cases h1 : (w1.sig s).assigned with
    | false => exact Or.inr ⟨rfl, h⟩
    | true =>
      simp only [Bool.not_true, Bool.false_eq_true, if_false]
      rw [← hv h1]
      split
      · exact Or.inr ⟨rfl, h⟩
      · exact ⟨rfl, h⟩
  setv s v := by
    intro w1 w2 h
    simp only [setv, Bool.true_and]
    rw [← h.ty s, ← h.assigned s id]
    split
    · exact Or.inr ⟨rfl, h⟩
    · split
      · exact Or.inr ⟨rfl, h⟩
      · split
        · exact Or.inr ⟨rfl, h⟩
        · refine ⟨rfl, ?_, ?_, ?_, h.mem, h.done, h.log⟩
          · intro x; by_cases e : x = s
            · subst e; simp [upd, h.ty x]
            · simp [upd, e, h.ty x]
          · intro x hx; by_cases e : x = s
            · subst e; simp [upd]
            · simp [upd, e, h.assigned x hx]
          · intro x hx; by_cases e : x = s
            · subst e; simp [upd]
            · simpa [upd, e] using h.value x hx
  clearv s := by
    intro w1 w2 h
    refine ⟨rfl, ?_, ?_, ?_, h.mem, h.done, h.log⟩
    · intro x; by_cases e : x = s
      · subst e; simp [upd, h.ty x]
      · simp [upd, e, h.ty x]
    · intro x hx; by_cases e : x = s
      · subst e; simp [upd]
      · simp [upd, e, h.assigned x hx]
    · intro x hx; by_cases e : x = s
      · subst e; simp [upd]
      · simpa [upd, e] using h.value x hx
  getMem b := fun w1 w2 h => ⟨congrFun h.mem b, h⟩
  setMem b m := fun w1 w2 h => ⟨rfl, h.ty, h.assigned, h.value, by show upd _ _ _ = upd _ _ _; rw [h.mem], h.done, h.log⟩
  setDone b d := fun w1 w2 h => ⟨rfl, h.ty, h.assigned, h.value, h.mem, by show upd _ _ _ = upd _ _ _; rw [h.done], h.log⟩
  emit e := fun w1 w2 h => ⟨rfl, h.ty, h.assigned, h.value, h.mem, h.done, by show _ :: _ = _ :: _; rw [h.log]⟩

private theorem equal_clr {D : SigId → Prop} {w1 w2 : World K} (h : SameUpTo D w1 w2) : Equal (clrW D w1) (clrW D w2) := by
  refine ⟨?_, ?_, ?_, h.mem, h.done, h.log⟩
  · intro s; by_cases hs : D s <;> simp [clrW, hs, h.ty s]
  · intro s _; by_cases hs : D s
    · simp [clrW, hs]
    · simp [clrW, hs, h.assigned s hs]
  · intro s _; by_cases hs : D s
    · simp [clrW, hs]
    · simpa [clrW, hs] using h.value s hs

variable {D : SigId → Prop}

/-- The outcomes of two calls: the same result; if they return, the diagrams look the same; if they throw, the
same exception, and the diagrams differ at most in the signals in `D`. -/
def SameOutcome (D : SigId → Prop) : EStateM.Result Err (Machine K) Unit → EStateM.Result Err (Machine K) Unit → Prop
  | .ok _ m1, .ok _ m2 => Equal m1.w m2.w ∧ m1.s = m2.s
  | .error e1 m1, .error e2 m2 => e1 = e2 ∧ SameUpTo D m1.w m2.w ∧ m1.s = m2.s
  | _, _ => False

private theorem upTo_left {w1 w2 : World K} (h : SameUpTo D (clrW D w1) w2) : SameUpTo D w1 w2 := by
  refine ⟨fun s => ?_, fun s hs => ?_, fun s hs => ?_, h.mem, h.done, h.log⟩
  · have := h.ty s; by_cases hs : D s <;> simpa [clrW, hs] using this
  · have := h.assigned s hs; simpa [clrW, hs] using this
  · have := h.value s hs; simpa [clrW, hs] using this

private theorem SameUpTo.symm {w1 w2 : World K} (h : SameUpTo D w1 w2) : SameUpTo D w2 w1 :=
  ⟨fun s => (h.ty s).symm, fun s hs => (h.assigned s hs).symm,
   fun s hs h' => (h.value s hs ((h.assigned s hs).trans h')).symm, h.mem.symm, h.done.symm, h.log.symm⟩

private theorem upTo_of_equal {w1 w2 : World K} (h : Equal w1 w2) : SameUpTo D w1 w2 :=
  ⟨h.ty, fun s _ => h.assigned s id, fun s _ => h.value s id, h.mem, h.done, h.log⟩

/-- In a debug build, whatever signals of the model hold before a call of `init` or `run`, and whether they are
assigned, makes no difference: from two states of the simulator and the diagram that differ only in linked signals,
the call has the same outcome. -/
theorem C24_fresh (cfg : Config K) (hd : cfg.dbg = true) (hh : ∀ l s, s ∈ l → s ∈ cfg.hash l) (c : Call K)
    (m1 m2 : Machine K) (hr : Reach cfg m1) (hs : m1.s = m2.s) (hw : SameUpTo (Linked cfg) m1.w m2.w) :
    SameOutcome (Linked cfg) (c.exec cfg m1) (c.exec cfg m2) := by
  have P : TwinPrims (K := K) false Equal cfg.dbg cfg.dbg := by rw [hd]; exact prims
  have ht := P.call rfl c (clr (Linked cfg) m1) (clr (Linked cfg) m2) ⟨equal_clr hw, hs⟩
  have k1 := call_clr cfg hh c m1 (fun hi => reach_linked cfg hh hr hi)
  have k2 := call_clr cfg hh c m2 (by rw [← hs]; exact fun hi => reach_linked cfg hh hr hi)
  revert k1 k2 ht
  generalize c.exec cfg m1 = r1
  generalize c.exec cfg m2 = r2
  generalize c.exec cfg (clr (Linked cfg) m1) = q1
  generalize c.exec cfg (clr (Linked cfg) m2) = q2
  intro ht k1 k2
  rcases k1 with rfl | ⟨e1, m1', rfl, rfl⟩ <;> rcases k2 with rfl | ⟨e2, m2', rfl, rfl⟩
  · cases r1 with
    | ok a x =>
      cases r2 with
      | ok b y => exact ht.2
      | error e y => exact ht
    | error e x =>
      cases r2 with
      | ok b y => simp [TwinOut] at ht
      | error e' y =>
        obtain ⟨h1, h2, h3⟩ := ht.resolve_left (by simp)
        exact ⟨h1, upTo_of_equal h2, h3⟩
  · cases r1 with
    | ok a x => exact ht
    | error e x =>
      obtain ⟨h1, h2, h3⟩ := ht.resolve_left (by simp)
      exact ⟨h1, (upTo_left (upTo_of_equal h2).symm).symm, h3⟩
  · cases r2 with
    | ok b y => simp [TwinOut] at ht
    | error e' y =>
      obtain ⟨h1, h2, h3⟩ := ht.resolve_left (by simp)
      exact ⟨h1, upTo_left (upTo_of_equal h2), h3⟩
  · obtain ⟨h1, h2, h3⟩ := ht.resolve_left (by simp)
    exact ⟨h1, upTo_left (upTo_left (upTo_of_equal h2).symm).symm, h3⟩

/-- When an evaluation starts from a state vector, exactly the state signals are assigned. -/
theorem C24_only_states (cfg : Config K) (x : List K) (m m' : Machine K) (h : resetWith cfg x m = .ok () m') (s : SigId)
    (hs : s ∈ m.s.valueSigs) (ha : (m'.w.sig s).assigned = true) : s ∈ m.s.scalarStates ∨ s ∈ m.s.arrayStates := by
  by_contra hc
  have key : ∀ {α : Type} (x : M K α), Moves (SigOnly (fun s => s ∈ m.s.scalarStates ∨ s ∈ m.s.arrayStates)) x →
      ∀ w a w', x w = .ok a w' → w'.sig s = w.sig s := by
    intro α x hx w a w' e
    have := hx w
    rw [e] at this
    exact this s hc
  unfold resetWith at h
  rw [bind_of_ok (show getSim m = .ok m.s m from rfl)] at h
  simp only [bind_apply, inW, clearAll_ok] at h
  split at h
  · rename_i d m1 h1
    split at h1
    · rename_i a w1 h2
      simp only [EStateM.Result.ok.injEq] at h1
      obtain ⟨rfl, rfl⟩ := h1
      split at h
      · rename_i u w2 h3
        simp only [EStateM.Result.ok.injEq, true_and] at h
        subst h
        have e1 := key _ (moves_writeScalars (T := SigOnly _) _ _ _ (fun x hx v w y hy => by
          have : y ≠ x := fun e => hy (Or.inl (e ▸ hx))
          simp [upd, this])) _ _ _ h2
        have e2 := key _ (moves_writeArrays (T := SigOnly _) _ _ _ (fun x hx v w y hy => by
          have : y ≠ x := fun e => hy (Or.inr (e ▸ hx))
          simp [upd, this])) _ _ _ h3
        simp only at ha e1 e2
        rw [e2, e1] at ha
        simp [hs] at ha
      · cases h
    · cases h1
  · cases h

/-- The example after a run, with all signals reset. -/
private def wiped (st : Strategy) : Machine ℚ where
  w := { (Demo.after st).w with
    sig := fun s => if s < 4 then { ty := .scalar, assigned := false } else (Demo.after st).w.sig s }
  s := (Demo.after st).s

example (st : Strategy) : (Demo.after st).s = (wiped st).s ∧
    ((Demo.after st).w.sig 3).assigned = true ∧ ((wiped st).w.sig 3).assigned = false ∧
    SameUpTo (Linked (Demo.cfg st)) (Demo.after st).w (wiped st).w ∧
    SameOutcome (Linked (Demo.cfg st)) (Call.exec (Demo.cfg st) (.run 100 2 (1/10) 10) (Demo.after st))
      (Call.exec (Demo.cfg st) (.run 100 2 (1/10) 10) (wiped st)) := by
  have hl : ∀ s, s < 4 → Linked (Demo.cfg st) s := by
    intro s hs
    have : ∀ s < 4, ∃ l ∈ [Demo.add, Demo.gain, Demo.source, Demo.integ], ∃ p ∈ l.links, p.1 = s := by decide
    obtain ⟨l, h1, p, h2, rfl⟩ := this s hs
    exact ⟨.leaf l, (leaf_mem_all _ l).1 (by rw [show (Demo.cfg st).model = Demo.model from rfl, Demo.leaves_eq]; exact h1), p.2, h2⟩
  have hw : SameUpTo (Linked (Demo.cfg st)) (Demo.after st).w
      (wiped st).w := by
    refine ⟨?_, ?_, ?_, rfl, rfl, rfl⟩
    · intro s
      by_cases h : s < 4
      · simp only [wiped, h, if_true]
        revert s; cases st <;> decide +kernel
      · simp [wiped, h]
    · intro s hs; have : ¬ s < 4 := fun h => hs (hl s h)
      simp [wiped, this]
    · intro s hs; have : ¬ s < 4 := fun h => hs (hl s h)
      simp [wiped, this]
  exact ⟨rfl, by cases st <;> decide +kernel, by simp [wiped], hw,
    C24_fresh _ rfl (fun _ _ h => h) _ _ _ (Demo.reach st) rfl hw⟩

end Pooya.C24
