import Verif.Model.Lifetime

/-! Which blocks a call follows pointers to, and what callbacks may do.  Nothing here refers to how the calls work. -/

namespace Pooya

variable {σ : Type}

/-- `x` is `b` or lies below `b`. -/
inductive Heap.Below (h : Heap) : BlkId → BlkId → Prop
  | self (b : BlkId) : Below h b b
  | kid {b c x : BlkId} : c ∈ h.kids b → Below h c x → Below h b x

/-- `x` is `b` or one of its ancestors. -/
inductive Heap.Above (h : Heap) : BlkId → BlkId → Prop
  | self (b : BlkId) : Above h b b
  | up {b p x : BlkId} : h.parent b = some p → Above h p x → Above h b x

/-- The call may follow a pointer to the block: to the blocks it is called with; calls that pass through a submodel, to everything below
it; calls that mention the full name of a block in a text - in debug builds nearly all of them - to the ancestors of that block. -/
def LOp.Touches (dbg : Bool) (h : Heap) : LOp σ → BlkId → Prop
  | .new _ none _, _ => False
  | .new _ (some p) _, x => x = p ∨ dbg = true ∧ h.Above p x
  | .setParent b p, x => x = b ∨ (if h.parent b = none ∨ h.parent b = some p then x = p ∨ dbg = true ∧ h.Above p x else h.Above b x)
  | .linkBlock p b, x => x = b ∨ (dbg = true ∧ h.Above p x) ∨ (if h.parent b = some p then x = p else h.Above b x)
  | .rename b _, x => x = b
  | .fullName b, x => h.Above b x
  | .visit b _ _ _, x | .mark b _, x | .step _ b _, x | .process b _, x => h.Below b x ∨ dbg = true ∧ h.Above b x
  | .destroy b, x => x = b

/-- The call can be written in a program: the objects it names exist and have not been destroyed, parents are submodels. -/
def LOp.Valid (s : Store σ) : LOp σ → Prop
  | .new _ none _ => True
  | .new _ (some p) _ => s.alive p = true ∧ (s.heap.node p).isSub = true
  | .setParent b p | .linkBlock p b => s.alive b = true ∧ s.alive p = true ∧ (s.heap.node p).isSub = true
  | .rename b _ | .fullName b | .visit b _ _ _ | .mark b _ | .step _ b _ | .process b _ | .destroy b => s.alive b = true

/-- A callback that runs into no undefined behaviour and neither builds nor destroys blocks; as all code that uses
`pooya_trace`, it leaves the traceback as it was. -/
def Tame {α : Type} (x : LM σ α) : Prop :=
  ∀ s, match x s with
    | .ok _ s' => s'.heap = s.heap ∧ s'.alive = s.alive ∧ s'.trace = s.trace
    | .error (.ub _) _ => False
    | .error _ s' => s'.heap = s.heap ∧ s'.alive = s.alive ∧ s'.trace = s.trace

/-- The callbacks of the call are tame. -/
def LOp.Tame : LOp σ → Prop
  | .visit _ cb _ _ => ∀ b l, Pooya.Tame (cb b l)
  | .step _ _ f => ∀ b, Pooya.Tame (f b)
  | .process _ act => ∀ b, Pooya.Tame (act b)
  | _ => True

def LOp.isDestroy : LOp σ → Bool
  | .destroy _ => true
  | _ => false

/-- The blocks a program has at some moment; with `del = false` it destroys none. -/
inductive Store.Reached (dbg del : Bool) : Store σ → Prop
  | empty {x : σ} : Reached dbg del (Store.empty x)
  | step {s s' : Store σ} {n : Nat} (op : LOp σ) : Reached dbg del s → op.Valid s → op.Tame → (op.isDestroy = true → del = true) →
      op.exec dbg n s = .ok () s' → Reached dbg del s'

/-- The outcome is not undefined behaviour. -/
def Defined {α : Type} (r : EStateM.Result Err (Store σ) α) : Prop := ∀ u s', r ≠ .error (.ub u) s'

end Pooya
