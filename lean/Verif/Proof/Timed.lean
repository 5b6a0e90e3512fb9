import Verif.Spec.Timed
import Verif.Props.C69

/-! Diagrams with signals that are functions of time. -/

namespace Pooya

open C60 C69

set_option linter.unusedSectionVars false

section
variable {F : Type} [_root_.Field F] [LinearOrder F] [IsStrictOrderedRing F]
attribute [local instance] Arith.exact
variable {cfg : Config F} {V : Vars} {h : F} {Inv : F → (BlkId → Mem F) → Prop} {Good : F → (SigId → Option (Val F)) → Prop}

theorem tiles_le {s t : F} {l : List (F × F)} (hl : Tiles s t l) : s ≤ t := by
  induction hl with
  | done => exact le_refl _
  | step h1 _ ih => exact h1.le.trans ih

/-- What each step that is not longer than `h` carries on, the steps to a time carry on. -/
theorem Evolves.carry (hstep : ∀ mem s u x val mem', Inv s mem → s < u → u - s ≤ h → Committed cfg V mem u x val mem' → Inv u mem' ∧ Good u val)
    {st : Stepper F} {t s : F} {mem mem' : BlkId → Mem F} {x y : List F} {steps : List (F × F)} {val : SigId → Option (Val F)}
    (he : Evolves cfg V st t mem s x steps y val mem') (ht : Tiles s t steps) (hh : t - s ≤ h) (hi : Inv s mem) : Inv t mem' ∧ Good t val := by
  induction he with
  | last h1 _ _ h4 => exact hstep _ _ _ _ _ _ hi (of_decide_eq_true h1) hh h4
  | @step _ _ _ s u _ _ _ _ _ _ _ _ _ _ h4 _ ih =>
    cases ht with
    | step k1 k2 =>
      have := tiles_le k2
      exact ih k2 (by linarith) (hstep _ _ _ _ _ _ hi k1 (by linarith) h4).1

theorem Passes.carry (hstep : ∀ mem s u x val mem', Inv s mem → s < u → u - s ≤ h → Committed cfg V mem u x val mem' → Inv u mem' ∧ Good u val)
    {a b : Snapshot F} {ts : List F} (hp : Passes cfg V a ts b) (hts : (a.time :: ts).IsChain fun s u => s < u ∧ u - s ≤ h) (hi : Inv a.time a.mem) :
    Inv b.time b.mem ∧ (ts ≠ [] → Good b.time b.vals) := by
  have key : Inv b.time b.mem ∧ (ts ≠ [] ∨ Good a.time a.vals → Good b.time b.vals) := by
    induction hp with
    | nil => exact ⟨hi, fun e => e.resolve_left (fun e => e rfl)⟩
    | @steps a b c ts st steps _ _ k3 _ k5 _ ih =>
      obtain ⟨⟨q1, q2⟩, q3⟩ := List.isChain_cons_cons.1 hts
      obtain ⟨g1, g2⟩ := k5.carry hstep k3 q2 hi
      obtain ⟨r1, r2⟩ := ih q3 g1
      exact ⟨r1, fun _ => r2 (.inr g2)⟩
    | @sample a b c ts _ k2 _ ih =>
      obtain ⟨⟨q1, q2⟩, q3⟩ := List.isChain_cons_cons.1 hts
      obtain ⟨g1, g2⟩ := hstep _ _ _ _ _ _ hi q1 q2 k2
      obtain ⟨r1, r2⟩ := ih q3 g1
      exact ⟨r1, fun _ => r2 (.inr g2)⟩
  exact ⟨key.1, fun e => key.2 (.inl e)⟩

end

end Pooya
