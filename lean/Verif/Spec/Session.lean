import Verif.Spec.Recorder
import Verif.Spec.Trajectory

/-! The main programs of the samples: a simulation whose signals are recorded. -/

namespace Pooya

variable {K : Type} [Arith K]

/-- `history.track(s)` for each of the signals. -/
def trackEach (dbg : Bool) : List SigId → HM K Unit
  | [] => pure ()
  | s :: l => do
    let _ ← histTrack dbg (.val s .scalar)
    trackEach dbg l

/-- The loop `for (t : times) { sim.run(t, minH, maxH); history.update(k++, t); }` returns: from the simulator `m` and the history `h` it arrives at the history `h'`. -/
inductive Captures (cfg : Config K) (minH maxH : K) : Machine K → Hist K → Nat → List K → Hist K → Prop
  | nil {m : Machine K} {h : Hist K} {k : Nat} : Captures cfg minH maxH m h k [] h
  | cons {m m1 : Machine K} {h h1 h' : Hist K} {k : Nat} {t : K} {ts : List K} (fuel : Nat) : Call.exec cfg (.run fuel t minH maxH) m = .ok () m1 →
      histUpdate m1.w k t h = .ok () h1 → Captures cfg minH maxH m1 h1 (k + 1) ts h' → Captures cfg minH maxH m h k (t :: ts) h'

/-- The program `History history(grow); history.track(…); …; for (t : times) { sim.run(t); history.update(k++, t); } history.shrink_to_fit();` returns with the history `h`
(for example samples/test04_mass_spring.cpp:60-78). -/
def Session (cfg : Config K) (minH maxH : K) (m : Machine K) (grow : Nat) (l : List SigId) (times : List K) (h : Hist K) : Prop :=
  ∃ h0 h1, trackEach cfg.dbg l (Hist.new grow) = .ok () h0 ∧ Captures cfg minH maxH m h0 0 times h1 ∧ h = histShrink h1

end Pooya
