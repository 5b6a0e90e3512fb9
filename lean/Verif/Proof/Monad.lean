import Verif.Model.Signal

/-! Inversion lemmas for the outcome monad. -/

namespace Pooya

variable {σ α β : Type}

theorem bind_apply (x : EStateM Err σ α) (f : α → EStateM Err σ β) (s : σ) :
    (x >>= f) s = match x s with
      | .ok a s1 => f a s1
      | .error e s1 => .error e s1 := by
  show EStateM.bind x f s = _
  unfold EStateM.bind
  cases x s <;> rfl

theorem bind_ok (x : EStateM Err σ α) (f : α → EStateM Err σ β) (s s' : σ) (b : β) :
    (x >>= f) s = .ok b s' ↔ ∃ a s1, x s = .ok a s1 ∧ f a s1 = .ok b s' := by
  rw [bind_apply]
  cases h : x s with
  | ok a s1 => simp [and_assoc]
  | error e s1 => simp

theorem bind_error (x : EStateM Err σ α) (f : α → EStateM Err σ β) (s s' : σ) (e : Err) :
    (x >>= f) s = .error e s' ↔
      x s = .error e s' ∨ ∃ a s1, x s = .ok a s1 ∧ f a s1 = .error e s' := by
  rw [bind_apply]
  cases h : x s with
  | ok a s1 => simp [and_assoc]
  | error e s1 => simp

theorem bind_of_ok {x : EStateM Err σ α} {f : α → EStateM Err σ β} {s s1 : σ} {a : α}
    (h : x s = .ok a s1) : (x >>= f) s = f a s1 := by rw [bind_apply, h]

theorem bind_of_error {x : EStateM Err σ α} {f : α → EStateM Err σ β} {s s1 : σ} {e : Err}
    (h : x s = .error e s1) : (x >>= f) s = .error e s1 := by rw [bind_apply, h]

@[simp] theorem pure_apply (a : α) (s : σ) : (pure a : EStateM Err σ α) s = .ok a s := rfl

@[simp] theorem throwE_apply (e : Err) (s : σ) : (throwE e : EStateM Err σ α) s = .error e s := rfl

@[simp] theorem liftE_ok (a : α) (s : σ) : (liftE (.ok a) : EStateM Err σ α) s = .ok a s := rfl

@[simp] theorem liftE_error (e : Err) (s : σ) : (liftE (.error e) : EStateM Err σ α) s = .error e s := rfl

@[simp] theorem get_apply (s : σ) : (get : EStateM Err σ σ) s = .ok s s := rfl

@[simp] theorem set_apply (s s' : σ) : (set s' : EStateM Err σ PUnit) s = .ok ⟨⟩ s' := rfl

theorem liftE_eq_ok (x : Except Err α) (s s' : σ) (a : α) :
    (liftE x : EStateM Err σ α) s = .ok a s' ↔ x = .ok a ∧ s = s' := by
  cases x <;> simp

theorem debugVerify_ok (dbg c : Bool) (e : Exc) (s s' : σ) :
    debugVerify dbg c e s = .ok () s' ↔ (dbg = true → c = true) ∧ s' = s := by
  simp only [debugVerify]
  cases dbg <;> cases c <;> simp [eq_comm]

end Pooya
