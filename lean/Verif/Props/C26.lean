import Verif.Props.C25
import Verif.Props.C44

/-! # C26 — simulated time never goes backwards

For models with state variables the claim holds; for models without state variables `run` has no check
(`C26_no_check_without_states`), so the statement as a whole is partial. -/

namespace Pooya.C26

set_option linter.unusedSectionVars false

variable {K : Type} [Arith K]

/-- With state variables a run to an earlier time throws and leaves everything — signals, block states, flags, orders,
time and the record of calls — as it was. -/
theorem C26_backwards_rejected_partial (cfg : Config K) (m : Machine K) (hi : m.s.initialized = true) (hs : 0 < m.s.svSize)
    (fuel : Nat) (t minH maxH : K) (ht : (t <. m.s.tPrev) = true) :
    Call.exec cfg (.run fuel t minH maxH) m = .error (.exc .backInTime) m := by
  show run cfg fuel t minH maxH m = _
  rw [run_eq cfg fuel t minH maxH m hi]
  simp only [hs, if_true, advance, bind_apply, getSim, ht, throwE_apply]

/-- A run of an initialised simulator either returns and the time is then exactly the requested one, or throws and the time
is the old one. -/
theorem C26_time (cfg : Config K) (m : Machine K) (hi : m.s.initialized = true) (fuel : Nat) (t minH maxH : K) :
    (∀ m', Call.exec cfg (.run fuel t minH maxH) m = .ok () m' → m'.s.tPrev = t) ∧
    (∀ e m', Call.exec cfg (.run fuel t minH maxH) m = .error e m' → m'.s.tPrev = m.s.tPrev) :=
  run_time cfg fuel t minH maxH m hi

/-! ## Histories -/

/-- Histories of runs: the times at which the simulator stood, latest first. -/
inductive Runs (cfg : Config K) : Machine K → List K → Machine K → Prop
  | nil (m : Machine K) : Runs cfg m [m.s.tPrev] m
  | run {m m1 : Machine K} {ts : List K} (fuel : Nat) (t minH maxH : K) : Runs cfg m ts m1 →
      Runs cfg m ((stateOf (run cfg fuel t minH maxH m1)).s.tPrev :: ts) (stateOf (run cfg fuel t minH maxH m1))
  | user {m m1 : Machine K} {ts : List K} (sig : SigId → Cell K) : Runs cfg m ts m1 →
      Runs cfg m ts { m1 with w := { m1.w with sig := sig } }

theorem runs_sized {cfg : Config K} (hd : ∀ st, cfg.stepper = some st → Stepper.Dim st) {m m' : Machine K} {ts : List K} {n : Nat}
    (h : Runs cfg m ts m') (hi : m.s.initialized = true) (hn : SizedN n m) :
    m'.s.initialized = true ∧ SizedN n m' ∧ ∃ ts', ts = m'.s.tPrev :: ts' := by
  induction h with
  | nil => exact ⟨hi, hn, [], rfl⟩
  | run fuel t a b _ ih =>
    obtain ⟨h1, h2, _⟩ := ih
    exact ⟨((covers_fixed cfg).run fuel t a b _ h1).initialized.trans h1, sized_run hd fuel t a b _ h1 h2, _, rfl⟩
  | user sig _ ih => exact ⟨ih.1, ih.2.1, ih.2.2⟩

/-- With state variables, from any state whose state vector has the size that `init` determined, and with a stepper that
keeps the length of the vector (all provided ones do): along any history of runs, returning or throwing, with arbitrary
changes of signals in between, no time is before its predecessor. -/
theorem C26_history_partial (cfg : Config K) (hd : ∀ st, cfg.stepper = some st → Stepper.Dim st) {m m' : Machine K} {ts : List K}
    (hrefl : ∀ t : K, (t <. t) = false) (h : Runs cfg m ts m') (hi : m.s.initialized = true) (hs : m.s.svSize = m.s.nState) (h0 : 0 < m.s.nState) :
    ts.IsChain (fun later earlier => (later <. earlier) = false) := by
  have hn : SizedN m.s.nState m := ⟨hs, rfl⟩
  induction h with
  | nil => exact List.IsChain.singleton _
  | @run m1 ts fuel t a b hr ih =>
    obtain ⟨h1, h2, ts', h3⟩ := runs_sized hd hr hi hn
    have ih := ih
    rw [h3] at ih ⊢
    refine List.IsChain.cons_cons ?_ ih
    have ht := run_time cfg fuel t a b m1 h1
    cases hlt : (t <. m1.s.tPrev) with
    | true =>
      have := C26_backwards_rejected_partial cfg m1 h1 (by rw [h2.1]; exact h0) fuel t a b hlt
      rw [show run cfg fuel t a b m1 = _ from this]
      exact hrefl _
    | false =>
      cases hx : run cfg fuel t a b m1 with
      | ok x m2 => rw [show (stateOf (EStateM.Result.ok x m2 : EStateM.Result Err (Machine K) Unit)).s.tPrev = t from ht.1 m2 hx]; exact hlt
      | error e m2 =>
        rw [show (stateOf (EStateM.Result.error e m2 : EStateM.Result Err (Machine K) Unit)).s.tPrev = _ from ht.2 e m2 hx]; exact hrefl _
  | user sig _ ih => exact ih

section
variable {F : Type} [Field F] [LinearOrder F] [IsStrictOrderedRing F]
attribute [local instance] Arith.exact

/-- In exact arithmetic: the times never decrease. -/
theorem C26_history_exact_partial (cfg : Config F) (hd : ∀ st, cfg.stepper = some st → Stepper.Dim st) {m m' : Machine F} {ts : List F}
    (h : Runs cfg m ts m') (hi : m.s.initialized = true) (hs : m.s.svSize = m.s.nState) (h0 : 0 < m.s.nState) :
    ts.Pairwise (fun later earlier => earlier ≤ later) := by
  have hc := C26_history_partial cfg hd (fun t => by simp) h hi hs h0
  have : Trans (fun later earlier : F => earlier ≤ later) (fun later earlier => earlier ≤ later) (fun later earlier => earlier ≤ later) :=
    ⟨fun a b => le_trans b a⟩
  exact (hc.imp (fun a b hab => by simpa using hab)).pairwise

end

/-- The provided steppers keep the length. -/
theorem dim_provided : Stepper.Dim (euler (K := K)) ∧ Stepper.Dim (rk4 (K := K)) ∧ Stepper.Dim (rkf45 (K := K)) :=
  ⟨fun t1 t2 x => (C44.C44_dimension _ t1 x t2 rfl).1, fun t1 t2 x => (C44.C44_dimension _ t1 x t2 rfl).2.1, fun t1 t2 x => (C44.C44_dimension _ t1 x t2 rfl).2.2⟩

/-! ## Without state variables -/

/-- A single constant: no state variables. -/
def constModel : Block ℚ := .sub 100 [] [.leaf { id := 1, links := [(0, Demo.ot)], kind := .const (.scalar 7) 0 }]

def constCfg (st : Strategy) : Config ℚ := { Demo.cfg st with model := constModel, deriv := fun _ => none, stepper := none }

/-- The claim fails for models without state variables: after `init(5)`, `run(3)` returns and the time is 3. -/
theorem C26_no_check_without_states : ∃ (cfg : Config ℚ) (m : Machine ℚ), Reach cfg m ∧ m.s.initialized = true ∧ m.s.tPrev = 5 ∧
    ∃ m', Call.exec cfg (.run 10 3 (1/10) 1) m = .ok () m' ∧ m'.s.tPrev = 3 ∧ m'.w.log ≠ m.w.log := by
  refine ⟨constCfg .plain, stateOf (Call.exec (constCfg .plain) (.init 5) Demo.start),
    .call _ (.new Demo.world 0 (fun _ => rfl) rfl), by decide +kernel, by decide +kernel, _, eq_of_returns (by decide +kernel),
    by decide +kernel, by decide +kernel⟩

/-- The demo stands at time 1 with one state variable; going back is rejected. -/
example (st : Strategy) : (Demo.after st).s.initialized = true ∧ (Demo.after st).s.svSize = (Demo.after st).s.nState ∧
    0 < (Demo.after st).s.nState ∧ ((1/2 : ℚ) <. (Demo.after st).s.tPrev) = true := by
  cases st <;> decide +kernel

end Pooya.C26
