import Verif.Proof.History
import Verif.Spec.Reach
import Verif.Model.Field

/-! # C48 — History returns what was recorded -/

namespace Pooya.C48

set_option linter.unusedSectionVars false

variable {K : Type} [Arith K]

/-- After any sequence of `update` and `shrink_to_fit` calls: `time()(k)` is the time, and row `k` of `history[sig]` the value of the
signal (zeros if it was unassigned), at the most recent update with index `k`; there is no such row, or it is indeterminate, exactly
if there was no such update. Every call returns. -/
theorem C48_recorded (ty : SigId → Ty) (grow : Nat) (hg : 1 ≤ grow) (sigs : List SigId) (hs : sigs ≠ []) (hn : sigs.Nodup)
    (ops : List (HOp K)) (hp : Proper ty grow sigs ops) :
    ∃ h, runOps ops (Hist.tracking grow sigs) = .ok () h ∧
      (∀ k, h.timeAt k = (lastAt ops k).map (·.2)) ∧
      ∀ i ∈ sigs, ∀ k, h.rowAt i k = (lastAt ops k).map (fun p => sample (p.1.sig i)) := by
  obtain ⟨h, h1, h2⟩ := runOps_ok hg hs hn ops hp
  refine ⟨h, h1, h2.time, fun i hm k => ?_⟩
  by_cases hu : Used ops
  · exact h2.rows hu i hm k
  · rw [lastAt_none hu]
    unfold Hist.rowAt
    rw [(h2.unused hu).1]
    simp [tabGet]

/-- The growth increment does not matter. -/
theorem C48_growth (ty : SigId → Ty) (g g' : Nat) (hg : 1 ≤ g) (hg' : 1 ≤ g') (sigs : List SigId) (hs : sigs ≠ []) (hn : sigs.Nodup)
    (ops : List (HOp K)) (hp : Proper ty g sigs ops) (hp' : Proper ty g' sigs ops) :
    ∃ h h', runOps ops (Hist.tracking g sigs) = .ok () h ∧ runOps ops (Hist.tracking g' sigs) = .ok () h' ∧
      (∀ k, h.timeAt k = h'.timeAt k) ∧ (∀ i ∈ sigs, ∀ k, h.rowAt i k = h'.rowAt i k) ∧ h.nrows = h'.nrows := by
  obtain ⟨h, h1, h2, h3⟩ := C48_recorded ty g hg sigs hs hn ops hp
  obtain ⟨h', h1', h2', h3'⟩ := C48_recorded ty g' hg' sigs hs hn ops hp'
  refine ⟨h, h', h1, h1', fun k => by rw [h2, h2'], fun i hm k => by rw [h3 i hm, h3' i hm], ?_⟩
  obtain ⟨a, ha, ia⟩ := runOps_ok hg hs hn ops hp
  obtain ⟨b, hb, ib⟩ := runOps_ok hg' hs hn ops hp'
  rw [h1] at ha; rw [h1'] at hb
  cases ha; cases hb
  by_cases hu : Used ops
  · rw [(nrows_eq ia).2 hu, (nrows_eq ib).2 hu]
    obtain ⟨_, ⟨p, hp1⟩, a3⟩ := ia.bottom hu
    obtain ⟨_, ⟨q, hq1⟩, b3⟩ := ib.bottom hu
    have e1 := a3 h'.bottom (by rw [hq1]; simp)
    have e2 := b3 h.bottom (by rw [hp1]; simp)
    omega
  · rw [(nrows_eq ia).1 hu, (nrows_eq ib).1 hu]

/-- A history that tracks nothing records nothing, not even the time. -/
theorem C48_nothing_tracked (grow : Nat) (w : World K) (k : Nat) (t : K) :
    histUpdate w k t (Hist.tracking grow [] : Hist K) = .ok () (Hist.tracking grow []) := rfl

/-! ## Example: signals 0 (scalar) and 1 (array of size 2), growth 1, indices 3, 0, 3 -/

def world (a : ℚ) (b : Bool) : World ℚ where
  sig s := if s = 0 then ⟨.scalar, true, some (.scalar a)⟩ else ⟨.array 2, b, some (.array [a, a + 1])⟩
  mem _ := { value := .scalar 0 }
  done _ := false
  log := []

def ops : List (HOp ℚ) := [.update (world 1 true) 3 (1/2), .shrink, .update (world 5 true) 0 (3/2), .update (world 7 false) 3 (5/2)]

def types (s : SigId) : Ty := if s = 0 then .scalar else .array 2

theorem world_proper (a : ℚ) (b : Bool) (s : SigId) (hs : s ∈ [0, 1]) : ((world a b).sig s).proper ∧ ((world a b).sig s).ty = types s := by
  rcases List.mem_cons.1 hs with rfl | hs
  · exact ⟨fun _ => ⟨.scalar a, rfl, rfl, rfl⟩, rfl⟩
  · rcases List.mem_cons.1 hs with rfl | hs
    · exact ⟨fun _ => ⟨.array [a, a + 1], rfl, rfl, rfl⟩, rfl⟩
    · cases hs

theorem ops_proper (grow : Nat) (hg : grow ≤ 1000) : Proper types grow [0, 1] ops := by
  intro w k t hm
  simp only [ops, List.mem_cons, HOp.update.injEq, reduceCtorEq, List.not_mem_nil, or_false, false_or] at hm
  rcases hm with ⟨rfl, rfl, rfl⟩ | ⟨rfl, rfl, rfl⟩ | ⟨rfl, rfl, rfl⟩
  · exact ⟨by omega, world_proper _ _⟩
  · exact ⟨by omega, world_proper _ _⟩
  · exact ⟨by omega, world_proper _ _⟩

example : ∃ h, runOps ops (Hist.tracking 1 [0, 1]) = .ok () h ∧ h.timeAt 3 = some (5/2) ∧ h.timeAt 0 = some (3/2) ∧ h.timeAt 1 = none ∧
    h.rowAt 1 3 = some [0, 0] ∧ h.rowAt 1 0 = some [5, 6] ∧ h.rowAt 0 3 = some [7] := by
  obtain ⟨h, h1, h2, h3⟩ := C48_recorded types 1 (by omega) [0, 1] (by simp) (by decide) ops (ops_proper 1 (by omega))
  refine ⟨h, h1, ?_, ?_, ?_, ?_, ?_, ?_⟩
  · rw [h2]; decide +kernel
  · rw [h2]; decide +kernel
  · rw [h2]; decide +kernel
  · rw [h3 1 (by simp)]; decide +kernel
  · rw [h3 1 (by simp)]; decide +kernel
  · rw [h3 0 (by simp)]; decide +kernel

end Pooya.C48
