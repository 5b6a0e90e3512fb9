import Verif.Proof.Twin
import Verif.Spec.Demo

/-! C09: release builds compute what debug builds compute. -/

namespace Pooya.C09

set_option linter.unusedSectionVars false

variable {K : Type} [Arith K]

/-- A user program: calls of the simulator, in between the user may change signals depending on what it
observes, and finally stops. -/
inductive Prog (K : Type) where
  | stop
  | call (c : Call K) (k : Machine K → Prog K)
  | poke (f : World K → SigId → Cell K) (k : Prog K)

/-- Run a user program. -/
def Prog.exec (cfg : Config K) : Prog K → MM K Unit
  | .stop => pure ()
  | .call c k => do
    c.exec cfg
    let m ← get
    (k m).exec cfg
  | .poke f k => do
    modify (fun m => { m with w := { m.w with sig := f m.w } })
    k.exec cfg

/-- The same program compiled with NDEBUG. -/
def release (cfg : Config K) : Config K := { cfg with dbg := false }

private theorem prims (d : Bool) : TwinPrims (K := K) true (· = ·) d false where
  mode := Or.inr ⟨rfl, rfl⟩
  tys := by rintro w _ rfl _; rfl
  asgs := by rintro w _ rfl _; rfl
  dones := by rintro w _ rfl; rfl
  getv s := by
    rintro w _ rfl
    simp only [getv, Bool.false_and, Bool.false_eq_true, if_false]
    split
    · split
      · exact Or.inl rfl
      · exact rfl
    · split
      · exact Or.inl rfl
      · exact ⟨rfl, rfl⟩
  setv s v := by
    rintro w _ rfl
    simp only [setv, Bool.false_and, Bool.false_eq_true, if_false]
    split
    · exact Or.inl rfl
    · split
      · exact rfl
      · split
        · exact rfl
        · exact ⟨rfl, rfl⟩
  clearv s := by rintro w _ rfl; exact ⟨rfl, rfl⟩
  getMem b := by rintro w _ rfl; exact ⟨rfl, rfl⟩
  setMem b m := by rintro w _ rfl; exact ⟨rfl, rfl⟩
  setDone b d := by rintro w _ rfl; exact ⟨rfl, rfl⟩
  emit e := by rintro w _ rfl; exact ⟨rfl, rfl⟩

/-- One call of `init` or `run`: if it returns in the debug build, the release build returns with exactly
the same signals, block members, simulator members and record of calls. -/
theorem C09_call (cfg : Config K) (c : Call K) (m m' : Machine K) (h : c.exec cfg m = .ok () m') :
    c.exec (release cfg) m = .ok () m' := by
  have := (prims (K := K) cfg.dbg).call (c1 := cfg) (c2 := release cfg) rfl c m m ⟨rfl, rfl⟩
  rw [h] at this
  cases hr : c.exec (release cfg) m with
  | ok a m2 =>
    rw [hr] at this
    obtain ⟨_, h1, h2⟩ := this
    cases m'; cases m2
    dsimp only at h1 h2
    rw [h1, h2]
  | error e m2 => rw [hr] at this; exact this.elim

/-- Any user program: if it runs without exception in a debug build, it ends in the same state in a release
build. -/
theorem C09_program (cfg : Config K) (p : Prog K) (m m' : Machine K) (h : p.exec cfg m = .ok () m') :
    p.exec (release cfg) m = .ok () m' := by
  induction p generalizing m with
  | stop => exact h
  | call c k ih =>
    unfold Prog.exec at h ⊢
    rw [bind_ok] at h
    obtain ⟨_, m1, h1, h2⟩ := h
    rw [bind_of_ok (C09_call cfg c m m1 h1)]
    exact ih m1 m1 h2
  | poke f k ih =>
    unfold Prog.exec at h ⊢
    exact ih _ h

/-- The example diagram, two runs with a signal changed in between, returns in a debug build. -/
private def prog : Prog ℚ :=
  .call (.init 0) fun _ => .call (.run 100 1 (1/10) 10) fun _ =>
  .poke (fun w s => if s = 7 then { ty := .scalar, assigned := true, value := some (.scalar 1) } else w.sig s)
    (.call (.run 100 2 (1/10) 10) fun _ => .stop)

example (st : Strategy) : (Demo.cfg st).dbg = true ∧
    ∃ m', prog.exec (Demo.cfg st) Demo.start = .ok () m' ∧ m'.s.sv = some [28] ∧
      prog.exec (release (Demo.cfg st)) Demo.start = .ok () m' := by
  have h : returns (prog.exec (Demo.cfg st) Demo.start) = true ∧
      (stateOf (prog.exec (Demo.cfg st) Demo.start)).s.sv = some [28] := by
    cases st <;> decide +kernel
  exact ⟨rfl, _, eq_of_returns h.1, h.2, C09_program _ _ _ _ (eq_of_returns h.1)⟩

end Pooya.C09
