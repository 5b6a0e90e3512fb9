import Verif.Model.Signal

/-! # C08 — a value signal is a write-once register per evaluation -/

namespace Pooya.C08

variable {K : Type}

/-- Calls on a signal. -/
inductive Op (K : Type) where
  | set (v : Val K)
  | get
  | clear
  | assigned

/-- What the caller sees; an exception leaves the program running (it is caught). -/
inductive Resp (K : Type) where
  | done
  | val (v : Val K)
  | flag (b : Bool)
  | thrown (e : Err)
deriving DecidableEq

/-- The modelled signal: perform a call, catching exceptions. -/
def perform (dbg : Bool) (s : SigId) (w : World K) : Op K → Resp K × World K
  | .set v => match setv dbg s v w with
    | .ok _ w' => (.done, w')
    | .error e w' => (.thrown e, w')
  | .get => match getv dbg s w with
    | .ok v w' => (.val v, w')
    | .error e w' => (.thrown e, w')
  | .clear => match clearv s w with
    | .ok _ w' => (.done, w')
    | .error e w' => (.thrown e, w')
  | .assigned => match Pooya.assigned s w with
    | .ok b w' => (.flag b, w')
    | .error e w' => (.thrown e, w')

/-- All responses of a history and the final world. -/
def performAll (dbg : Bool) (s : SigId) (w : World K) : List (Op K) → List (Resp K) × World K
  | [] => ([], w)
  | op :: ops =>
    let r := perform dbg s w op
    let rs := performAll dbg s r.2 ops
    (r.1 :: rs.1, rs.2)

/-- Specification: an optional value, `none` when there was no write since the last clear. -/
def specStep (ty : Ty) : Option (Val K) → Op K → Resp K × Option (Val K)
  | none, .set v => if v.sizeOk ty then (.done, some v) else (.thrown (.exc .sizeMismatch), none)
  | some a, .set _ => (.thrown (.exc .reassigned), some a)
  | none, .get => (.thrown (.exc .unassigned), none)
  | some a, .get => (.val a, some a)
  | _, .clear => (.done, none)
  | none, .assigned => (.flag false, none)
  | some a, .assigned => (.flag true, some a)

def specAll (ty : Ty) : Option (Val K) → List (Op K) → List (Resp K) × Option (Val K)
  | st, [] => ([], st)
  | st, op :: ops =>
    let r := specStep ty st op
    let rs := specAll ty r.2 ops
    (r.1 :: rs.1, rs.2)

/-- The cell represents the specification state. -/
def Represents (c : Cell K) : Option (Val K) → Prop
  | none => c.assigned = false
  | some v => c.assigned = true ∧ c.value = some v

/-- The values passed to `set` have the C++ type of the signal (enforced by the compiler). -/
def WellTyped (ty : Ty) (ops : List (Op K)) : Prop := ∀ v, Op.set v ∈ ops → v.hasTag ty = true

theorem perform_spec (s : SigId) (w : World K) (st : Option (Val K)) (op : Op K)
    (h : Represents (w.sig s) st) (ht : ∀ v, op = .set v → v.hasTag (w.sig s).ty = true) :
    let r := perform true s w op
    r.1 = (specStep (w.sig s).ty st op).1 ∧ Represents (r.2.sig s) (specStep (w.sig s).ty st op).2 ∧
    (r.2.sig s).ty = (w.sig s).ty ∧ (∀ s', s' ≠ s → r.2.sig s' = w.sig s') ∧ r.2.mem = w.mem ∧
    r.2.done = w.done := by
  cases op with
  | set v =>
    have htag := ht v rfl
    cases st with
    | none =>
      simp only [Represents] at h
      by_cases hs : v.sizeOk (w.sig s).ty
      · simp [perform, setv, htag, h, hs, specStep, upd, Represents]
        intro s' hs'; simp [hs']
      · simp [perform, setv, htag, h, hs, specStep, Represents]
    | some a =>
      simp only [Represents] at h
      simp [perform, setv, htag, h, specStep, Represents]
  | get =>
    cases st with
    | none => simp only [Represents] at h; simp [perform, getv, h, specStep, Represents]
    | some a => simp only [Represents] at h; simp [perform, getv, h, specStep, Represents]
  | clear =>
    simp [perform, clearv, specStep, upd, Represents]
    intro s' hs'; simp [hs']
  | assigned =>
    cases st with
    | none => simp only [Represents] at h; simp [perform, Pooya.assigned, h, specStep, Represents]
    | some a => simp only [Represents] at h; simp [perform, Pooya.assigned, h, specStep, Represents]

/-- C08: in a debug build, every history of calls on a signal gives exactly the responses of the
write-once register, and touches no other signal, block member or flag. -/
theorem C08_write_once (s : SigId) (w : World K) (st : Option (Val K)) (ops : List (Op K))
    (h : Represents (w.sig s) st) (ht : WellTyped (w.sig s).ty ops) :
    (performAll true s w ops).1 = (specAll (w.sig s).ty st ops).1 ∧
    Represents ((performAll true s w ops).2.sig s) (specAll (w.sig s).ty st ops).2 ∧
    (∀ s', s' ≠ s → (performAll true s w ops).2.sig s' = w.sig s') ∧
    (performAll true s w ops).2.mem = w.mem ∧ (performAll true s w ops).2.done = w.done := by
  induction ops generalizing w st with
  | nil => exact ⟨rfl, h, fun _ _ => rfl, rfl, rfl⟩
  | cons op ops ih =>
    obtain ⟨h1, h2, h3, h4, h5, h6⟩ := perform_spec s w st op h
      (fun v hv => ht v (by simp [hv]))
    obtain ⟨i1, i2, i3, i4, i5⟩ := ih (perform true s w op).2 (specStep (w.sig s).ty st op).2 h2
      (fun v hv => by rw [h3]; exact ht v (by simp [hv]))
    rw [h3] at i1 i2
    refine ⟨?_, i2, ?_, ?_, ?_⟩
    · simp only [performAll, specAll]; rw [h1, i1]
    · intro s' hs'; simp only [performAll]; rw [i3 s' hs', h4 s' hs']
    · simp only [performAll]; rw [i4, h5]
    · simp only [performAll]; rw [i5, h6]

/-- The value held in the specification is the only write since the last clear: after a clear and a
write, any further reads, writes and `assigned` calls keep it. -/
theorem C08_single_write (ty : Ty) (st : Option (Val K)) (v : Val K) (hv : v.sizeOk ty = true)
    (ops : List (Op K)) (hc : ∀ op ∈ ops, op ≠ .clear) :
    (specAll ty st (.clear :: .set v :: ops)).2 = some v := by
  have key : ∀ ops : List (Op K), (∀ op ∈ ops, op ≠ .clear) → (specAll ty (some v) ops).2 = some v := by
    intro ops
    induction ops with
    | nil => intro _; rfl
    | cons op ops ih =>
      intro hc
      have : (specStep ty (some v) op).2 = some v := by
        cases op with
        | clear => exact (hc .clear (by simp) rfl).elim
        | _ => rfl
      simp only [specAll]
      rw [this]; exact ih (fun o ho => hc o (by simp [ho]))
  simp [specAll, specStep, hv, key ops hc]

/-- A fresh signal starts without a write. -/
theorem C08_fresh (ty : Ty) : Represents (Cell.fresh ty : Cell K) none := rfl

/-- Write, write again, read, clear, read: a concrete history meeting the hypotheses. -/
example : (performAll true 0 (⟨fun _ => Cell.fresh .int, fun _ => { value := .int 0 },
      fun _ => false, []⟩ : World Nat)
    [.set (.int 3), .set (.int 4), .get, .clear, .get]).1 =
    [.done, .thrown (.exc .reassigned), .val (.int 3), .done, .thrown (.exc .unassigned)] :=
  (C08_write_once 0 ⟨fun _ => Cell.fresh .int, fun _ => { value := .int 0 }, fun _ => false, []⟩ none
    _ (C08_fresh .int) (by intro v hv; simp at hv; rcases hv with rfl | rfl <;> rfl)).1

end Pooya.C08
