import Verif.Proof.Delay
import Verif.Spec.Reach
import Mathlib.Tactic.FieldSimp
import Mathlib.Tactic.Ring
import Mathlib.Tactic.Linarith

/-! # C40 — Derivative is the backward difference

Full statement: *at a new time Derivative outputs (x(t)-x(t'))/(t-t') with t' the time of the last completed step; before the first
completed step it outputs its initial value; evaluated again at t' it outputs the derivative reported at t'.*

The last part is false (`C40_refuted`): `post_step` stores the *input* in `_y` (derivative.hpp:47), so evaluated again at t' the
block outputs the value its input had then (`C40_again`). The solvers evaluate at the time of the last step again at the
beginning of each step. The other parts are `C40_initial_partial`, `C40_difference_partial` and
`C40_difference_array_partial`. -/

namespace Pooya.C40

set_option linter.unusedSectionVars false

section
variable {K : Type} [Arith K]

/-- The life of a `Derivative` block `l` with input `x` and initial value `y0`: any sequence of activations (returning or throwing)
and completed steps. `Life … p m`: its memory is now `m`; `p` is the time of, and the value of the input at, the last completed
step. -/
inductive Life (dbg : Bool) (l : Leaf K) (x : SigId) (y0 : Val K) : Option (K × Val K) → Mem K → Prop where
  | new (m : Mem K) (h1 : m.firstStep = true) (h2 : m.value = y0) : Life dbg l x y0 none m
  | act {p : Option (K × Val K)} {w : World K} (t : K) (prev : Life dbg l x y0 p (w.mem l.id)) :
      Life dbg l x y0 p ((stateOf (l.act dbg t w)).mem l.id)
  | post {p : Option (K × Val K)} {w w' : World K} {t : K} {v : Val K} (prev : Life dbg l x y0 p (w.mem l.id))
      (value : (w.sig x).value = some v) (call : l.post dbg t w = .ok () w') : Life dbg l x y0 (some (t, v)) (w'.mem l.id)

variable {dbg : Bool} {l : Leaf K} {x o : SigId} {y0 : Val K}

theorem derivPost_ok {b : BlkId} {t : K} {w w' : World K} (h : derivPost dbg b t x w = .ok () w') :
    ∃ v, (w.sig x).value = some v ∧ w'.mem b = { w.mem b with t := some t, x := some v, value := v, firstStep := false } := by
  unfold derivPost at h
  simp only [bind_apply, getMem, setMem] at h
  unfold getv at h
  dsimp only at h
  split at h
  · rename_i h1
    split at h1
    · cases h1
    · split at h1
      · cases h1
      · rename_i v hv
        cases h1
        cases h
        exact ⟨_, hv, by simp [upd]⟩
  · cases h

theorem setv_mem (s : SigId) (v : Val K) (w : World K) : (stateOf (setv dbg s v w)).mem = w.mem := by
  unfold setv
  split
  · rfl
  split
  · rfl
  split <;> rfl

theorem stateOf_bind {σ α β : Type} (a : EStateM Err σ α) (f : α → EStateM Err σ β) (s : σ) :
    stateOf ((a >>= f) s) = (match a s with | .ok r s' => stateOf (f r s') | .error _ s' => s') := by
  rw [bind_apply]
  cases a s <;> rfl

theorem liftE_state {α : Type} (e : Except Err α) (w : World K) (f : α → M K Unit) (hf : ∀ a, (stateOf (f a w)).mem = w.mem) :
    (stateOf ((liftE e >>= f) w)).mem = w.mem := by
  cases e with
  | error e => rfl
  | ok a => exact hf a

theorem getv_state (s : SigId) (w : World K) (f : Val K → M K Unit) (hf : ∀ a, (stateOf (f a w)).mem = w.mem) :
    (stateOf ((getv dbg s >>= f) w)).mem = w.mem := by
  rw [bind_apply, getv_readE]
  cases readE dbg (w.sig s) with
  | error e => rfl
  | ok a => exact hf a

/-- After the first completed step an activation leaves the memory alone. -/
theorem derivAct_later {b : BlkId} {t : K} {w : World K} (h : (w.mem b).firstStep = false) :
    (stateOf (derivAct dbg b t x o w)).mem = w.mem := by
  unfold derivAct
  simp only [bind_apply, getMem, h, Bool.false_eq_true, if_false]
  cases ht : (w.mem b).t with
  | none => rfl
  | some t0 =>
    dsimp only
    by_cases he : (t0 ==. t) = true
    · rw [if_pos he]; exact setv_mem _ _ _
    · rw [if_neg he]
      apply getv_state
      intro v
      cases hx : (w.mem b).x with
      | none => rfl
      | some x0 => exact liftE_state _ _ _ (fun _ => setv_mem _ _ _)

/-- Before the first completed step an activation does not touch `_first_step` and `_y`. -/
theorem derivAct_first {b : BlkId} {t : K} {w : World K} (h : (w.mem b).firstStep = true) :
    ((stateOf (derivAct dbg b t x o w)).mem b).firstStep = true ∧ ((stateOf (derivAct dbg b t x o w)).mem b).value = (w.mem b).value := by
  unfold derivAct
  simp only [bind_apply, getMem, h, if_true, setMem, getv_readE]
  generalize readE dbg (w.sig x) = e
  cases e with
  | error e => simp [stateOf, upd, h]
  | ok v =>
    simp only [liftE_ok]
    rw [setv_mem]
    simp [upd, h]

/-- What the memory of the block contains. -/
def Inv (y0 : Val K) : Option (K × Val K) → Mem K → Prop
  | none, m => m.firstStep = true ∧ m.value = y0
  | some (t, v), m => m.firstStep = false ∧ m.t = some t ∧ m.x = some v ∧ m.value = v

theorem life_mem (hk : l.kind = .derivative x o) {p : Option (K × Val K)} {m : Mem K} (h : Life dbg l x y0 p m) : Inv y0 p m := by
  induction h with
  | new m h1 h2 => exact ⟨h1, h2⟩
  | @act p w t prev ih =>
    have e : stateOf (l.act dbg t w) = stateOf (derivAct dbg l.id t x o { w with log := .act l.id t :: w.log }) := by
      unfold Leaf.act
      rw [stateOf_bind]
      simp only [emit, Leaf.actBody, hk]
    rw [e]
    cases p with
    | none =>
      have := derivAct_first (dbg := dbg) (x := x) (o := o) (t := t) (w := { w with log := .act l.id t :: w.log }) (b := l.id) ih.1
      exact ⟨this.1, this.2.trans ih.2⟩
    | some q =>
      obtain ⟨a, b⟩ := q
      have := derivAct_later (dbg := dbg) (x := x) (o := o) (t := t) (w := { w with log := .act l.id t :: w.log }) (b := l.id) ih.1
      rw [this]
      exact ih
  | @post p w w' t v prev value call ih =>
    have h := post_log call
    simp only [Leaf.postBody, hk] at h
    obtain ⟨v', h1, h2⟩ := derivPost_ok h
    rw [value] at h1
    cases h1
    rw [h2]
    exact ⟨rfl, rfl, rfl, rfl⟩

variable {w : World K} {t t' : K}

/-- Part of C40: before the first completed step the block outputs its initial value. (It reads its input and stores it.) -/
theorem C40_initial_partial (hk : l.kind = .derivative x o) (hm : Life dbg l x y0 none (w.mem l.id)) {v : Val K} (hx : Holds dbg w x v)
    (ho : Takes dbg w o y0) :
    ∃ w', l.act dbg t w = .ok () w' ∧ (w'.sig o).value = some y0 ∧ (w'.sig o).assigned = true ∧ (∀ s, s ≠ o → w'.sig s = w.sig s) ∧
      (∀ b, b ≠ l.id → w'.mem b = w.mem b) ∧ Life dbg l x y0 none (w'.mem l.id) := by
  obtain ⟨h1, h2⟩ := life_mem hk hm
  have e : l.act dbg t w = .ok () { w with
      log := .act l.id t :: w.log
      mem := upd (upd w.mem l.id { w.mem l.id with t := some t }) l.id { w.mem l.id with t := some t, x := some v }
      sig := upd w.sig o { w.sig o with assigned := true, value := some y0 } } := by
    simp only [Leaf.act, bind_apply, emit, Leaf.actBody, hk, derivAct, getMem, h1, if_true, setMem, getv_readE, readE_holds hx, liftE_ok, h2]
    have := setv_takes (dbg := dbg) (s := o) (w := { w with
      log := .act l.id t :: w.log
      mem := upd (upd w.mem l.id { w.mem l.id with t := some t }) l.id { w.mem l.id with t := some t, x := some v } }) (v := y0) ho
    simp only [h1, h2] at this
    exact this
  refine ⟨_, e, by simp [upd], by simp [upd], fun s hs => by simp [upd, hs], fun b hb => by simp [upd, hb], ?_⟩
  exact .new _ (by simp [upd, h1]) (by simp [upd, h2])

/-- Part of C40: at a time other than that of the last completed step, `Derivative` outputs the difference quotient. -/
theorem C40_difference_partial {a a' : K} (hk : l.kind = .derivative x o) (hm : Life dbg l x y0 (some (t', .scalar a')) (w.mem l.id))
    (ht : (t' ==. t) = false) (hx : Holds dbg w x (.scalar a)) (ho : ∀ r, Takes dbg w o (.scalar r)) :
    Outputs dbg l t w o (.scalar ((a -. a') /. (t -. t'))) := by
  obtain ⟨h1, h2, h3, h4⟩ := life_mem hk hm
  refine outputs_eq (fun lg => ?_) (ho _)
  simp only [Leaf.actBody, hk, derivAct, bind_apply, getMem, h1, Bool.false_eq_true, if_false, h2, ht]
  rw [getv_log hx]
  simp only [h3, bind_apply, Val.lift2, liftE_ok]

/-- Part of C40: `DerivativeA`, the same for every coefficient. -/
theorem C40_difference_array_partial {n : Nat} {a a' : Fin n → K} (hk : l.kind = .derivative x o)
    (hm : Life dbg l x y0 (some (t', arrayOf a')) (w.mem l.id)) (ht : (t' ==. t) = false) (hx : Holds dbg w x (arrayOf a))
    (ho : ∀ r : Fin n → K, Takes dbg w o (arrayOf r)) : Outputs dbg l t w o (arrayOf (fun i => (a i -. a' i) /. (t -. t'))) := by
  obtain ⟨h1, h2, h3, h4⟩ := life_mem hk hm
  refine outputs_eq (fun lg => ?_) (ho _)
  simp only [Leaf.actBody, hk, derivAct, bind_apply, getMem, h1, Bool.false_eq_true, if_false, h2, ht]
  rw [getv_log hx]
  simp only [h3, bind_apply, lift2_ofFn, liftE_ok]

/-- What happens instead of the last part: evaluated again at the time of the last completed step the block outputs the value of
its *input* at that step. -/
theorem C40_again {v : Val K} (hk : l.kind = .derivative x o) (hm : Life dbg l x y0 (some (t', v)) (w.mem l.id)) (ht : (t' ==. t) = true)
    (ho : Takes dbg w o v) : Outputs dbg l t w o v := by
  obtain ⟨h1, h2, h3, h4⟩ := life_mem hk hm
  refine outputs_eq (fun lg => ?_) ho
  simp only [Leaf.actBody, hk, derivAct, bind_apply, getMem, h1, Bool.false_eq_true, if_false, h2, ht, if_true, h4]

end

/-! ## Exact arithmetic -/

section
variable {K : Type} [Field K] [LinearOrder K] [IsStrictOrderedRing K]
attribute [local instance] Arith.exact

/-- Part of C40: exact for inputs that are affine in time. -/
theorem C40_affine_partial {dbg : Bool} {l : Leaf K} {x o : SigId} {y0 : Val K} {w : World K} {t t' p q : K} (hk : l.kind = .derivative x o)
    (hm : Life dbg l x y0 (some (t', .scalar (p * t' + q))) (w.mem l.id)) (ht : t' ≠ t) (hx : Holds dbg w x (.scalar (p * t + q)))
    (ho : ∀ r, Takes dbg w o (.scalar r)) : Outputs dbg l t w o (.scalar p) := by
  have h := C40_difference_partial hk hm (decide_eq_false ht) hx ho
  have e : (p * t + q -. (p * t' + q)) /. (t -. t') = p := by
    have : t - t' ≠ 0 := sub_ne_zero.2 (Ne.symm ht)
    simp only [exact_sub, exact_div]
    field_simp
    ring
  rwa [e] at h

end

/-! ## The counterexample: input 3 t, steps at times 0 and 2 -/

def deriv : Leaf ℚ := { id := 7, links := [], kind := .derivative 0 1 }

/-- Signal 0 is the input with value `a`, signal 1 the output. -/
def world (a : ℚ) (m : Mem ℚ) : World ℚ where
  sig s := if s = 0 then ⟨.scalar, true, some (.scalar a)⟩ else ⟨.scalar, false, none⟩
  mem _ := m
  done _ := false
  log := []

def m0 : Mem ℚ := { value := .scalar 100, firstStep := true }
def m1 : Mem ℚ := { value := .scalar 0, firstStep := false, t := some 0, x := some (.scalar 0) }
def m2 : Mem ℚ := { value := .scalar 6, firstStep := false, t := some 2, x := some (.scalar 6) }

theorem life1 : Life true deriv 0 (.scalar 100) (some (0, .scalar 0)) m1 := by
  have := Life.post (dbg := true) (l := deriv) (x := 0) (y0 := .scalar 100) (w := world 0 m0) (t := 0) (v := .scalar 0)
    (.new _ rfl rfl) rfl (eq_of_returns (by decide +kernel))
  have e : (stateOf (deriv.post true 0 (world 0 m0))).mem deriv.id = m1 := by decide +kernel
  rwa [e] at this

theorem life2 : Life true deriv 0 (.scalar 100) (some (2, .scalar 6)) m2 := by
  have := Life.post (dbg := true) (l := deriv) (x := 0) (y0 := .scalar 100) (w := world 6 m1) (t := 2) (v := .scalar 6)
    life1 rfl (eq_of_returns (by decide +kernel))
  have e : (stateOf (deriv.post true 2 (world 6 m1))).mem deriv.id = m2 := by decide +kernel
  rwa [e] at this

/-- The derivative reported at time 2 is 3. -/
example : Outputs true deriv 2 (world 6 m1) 1 (.scalar 3) := by
  have := C40_difference_partial (dbg := true) (l := deriv) (t := 2) (w := world 6 m1) (x := 0) (o := 1) (a := 6) rfl life1
    (by decide +kernel) (by decide +kernel) (fun r => ⟨rfl, fun _ => ⟨rfl, rfl⟩⟩)
  have e : ((6 : ℚ) -. 0) /. (2 -. 0) = 3 := by decide +kernel
  rwa [e] at this

/-- Before the first completed step: the initial value 100. -/
example : ∃ w', deriv.act true 0 (world 0 m0) = .ok () w' ∧ (w'.sig 1).value = some (.scalar 100) := by
  obtain ⟨w', h1, h2, _⟩ := C40_initial_partial (dbg := true) (l := deriv) (t := 0) (w := world 0 m0) (x := 0) (o := 1) (y0 := .scalar 100)
    (v := .scalar 0) rfl (.new _ rfl rfl) (by decide +kernel) (by decide +kernel)
  exact ⟨w', h1, h2⟩

/-- C40 is false in its last part: `r` is what the block outputs at time `t`, before the step at `t` is completed; evaluated again
at `t` with the same input it should output `r`. -/
theorem C40_refuted : ¬ ∀ (dbg : Bool) (l : Leaf ℚ) (x o : SigId) (y0 : Val ℚ) (p : ℚ × Val ℚ) (w w' : World ℚ) (t : ℚ) (v r : Val ℚ),
    l.kind = .derivative x o → Life dbg l x y0 (some p) (w.mem l.id) → Life dbg l x y0 (some (t, v)) (w'.mem l.id) → p.1 < t →
    Holds dbg w x v → Outputs dbg l t w o r → Holds dbg w' x v → Takes dbg w' o r → Outputs dbg l t w' o r := by
  intro hall
  have h1 : Outputs true deriv 2 (world 6 m1) 1 (.scalar 3) := by
    have := C40_difference_partial (dbg := true) (l := deriv) (t := 2) (w := world 6 m1) (x := 0) (o := 1) (a := 6) rfl life1
      (by decide +kernel) (by decide +kernel) (fun r => ⟨rfl, fun _ => ⟨rfl, rfl⟩⟩)
    have e : ((6 : ℚ) -. 0) /. (2 -. 0) = 3 := by decide +kernel
    rwa [e] at this
  obtain ⟨w', h2, h3, _⟩ := hall true deriv 0 1 (.scalar 100) (0, .scalar 0) (world 6 m1) (world 6 m2) 2 (.scalar 6) (.scalar 3) rfl life1 life2
    (by decide +kernel) (by decide +kernel) h1 (by decide +kernel) (by decide +kernel)
  obtain ⟨w'', h4, h5, _⟩ : Outputs true deriv 2 (world 6 m2) 1 (.scalar 6) :=
    C40_again (x := 0) (t' := 2) rfl life2 (by decide +kernel) (by decide +kernel)
  rw [h2] at h4
  cases h4
  have := h3.value.symm.trans h5.value
  exact absurd this (by decide +kernel)

end Pooya.C40
