import Verif.Proof.Lifetime

/-! # C62: destroying blocks -/

namespace Pooya.C62

open Pooya

variable {σ : Type}

set_option linter.unusedSectionVars false

variable {dbg del : Bool}

theorem link_sub (h : Heap) (p b c : BlkId) : ((linkBlock h p b).2.node c).isSub = (h.node c).isSub := by
  unfold linkBlock
  split
  · rfl
  · simp only
    split
    · rfl
    · by_cases hc : c = p <;> simp [upd, hc]

theorem link_leafy {h : Heap} {p b : BlkId} (hl : h.Leafy) (hp : (h.node p).isSub = true) : (linkBlock h p b).2.Leafy := by
  intro c hc
  rw [link_sub] at hc
  have hcp : c ≠ p := fun e => by rw [e, hp] at hc; cases hc
  rw [C11.linkBlock_kids_other h p b c hcp]
  exact hl c hc

/-- What holds of the blocks a program has. -/
structure Inv (del : Bool) (s : Store σ) : Prop where
  heap : s.heap.Reachable
  born : ∀ b, s.alive b = true → b < s.heap.next
  leafy : s.heap.Leafy
  all : del = false → ∀ b, b < s.heap.next → s.alive b = true

theorem Inv.kids {s : Store σ} (hi : Inv del s) : ∀ p b, b ∈ s.heap.kids p → s.heap.parent b = some p := fun p b h => ((C11.C11_consistent hi.heap).iff_parent p b).1 h

theorem Inv.same {s s' : Store σ} (hi : Inv del s) (h1 : s'.heap = s.heap) (h2 : s'.alive = s.alive) : Inv del s' :=
  ⟨h1 ▸ hi.heap, by rw [h1, h2]; exact hi.born, h1 ▸ hi.leafy, by rw [h1, h2]; exact hi.all⟩

theorem setParent_next (h : Heap) (b p : BlkId) : (setParent h b p).2.next = h.next := by
  unfold setParent
  split
  · split
    · rfl
    · exact C11.linkBlock_next _ _ _
  · exact C11.linkBlock_next _ _ _

theorem setParent_leafy {h : Heap} {b p : BlkId} (hl : h.Leafy) (hp : (h.node p).isSub = true) : (setParent h b p).2.Leafy := by
  have h1 : Heap.Leafy { h with node := upd h.node b { h.node b with parent := some p } } := by
    intro c hc
    by_cases e : c = b
    · subst e; simp only [upd, if_true] at hc; simp only [Heap.kids, upd, if_true]; exact hl c hc
    · simp only [upd, if_neg e] at hc; simp only [Heap.kids, upd, if_neg e]; exact hl c hc
  have h2 : (({ h with node := upd h.node b { h.node b with parent := some p } } : Heap).node p).isSub = true := by
    by_cases e : p = b
    · subst e; simp [upd, hp]
    · simp [upd, e, hp]
  unfold setParent
  split
  · split
    · exact hl
    · exact link_leafy h1 h2
  · exact link_leafy h1 h2

theorem surely_ok {h : Heap} {al : BlkId → Bool} {α β : Type} {x : LM σ α} {f : α → β} {Q : α → Prop} (hx : Surely h al x Q) {s s' : Store σ} {b : β} (h1 : s.heap = h) (h2 : s.alive = al)
    (e : (do let a ← x; pure (f a) : LM σ β) s = .ok b s') : s'.heap = h ∧ s'.alive = al := by
  have := (hx.bind (f := fun a => (pure (f a) : LM σ β)) (R := fun _ => True) fun a _ => .pure trivial) s h1 h2 b s' e
  exact ⟨this.1, this.2.1⟩

theorem makes_ok {α β : Type} {x : LM σ α} {f : α → β} {s s' : Store σ} {Q : Heap → (BlkId → Bool) → Prop} {b : β} (hx : Makes s Q (x s))
    (e : (do let a ← x; pure (f a) : LM σ β) s = .ok b s') : Q s'.heap s'.alive := by
  rw [lm_bind] at e
  cases e1 : x s with
  | error e' s2 => rw [e1] at e; cases e
  | ok a s2 => rw [e1] at e; cases e; exact hx a _ e1

theorem deref_run {s : Store σ} {b : BlkId} (hb : s.alive b = true) : deref b s = .ok (s.heap.node b) s := by
  unfold deref; rw [if_pos hb]

theorem rename_run {s : Store σ} {b : BlkId} (hb : s.alive b = true) (name : Str) : renameP b name s = .ok () { s with heap := renameBlock s.heap b name } := by
  unfold renameP; rw [lm_bind, deref_run hb]; rfl

theorem destroy_run {s : Store σ} {b : BlkId} (hb : s.alive b = true) : destroyP b s = .ok () { s with alive := upd s.alive b false } := by
  unfold destroyP; rw [lm_bind, deref_run hb]; rfl

theorem destroy_alive {s s' : Store σ} {b : BlkId} (h : destroyP b s = .ok () s') : s.alive b = true := by
  by_cases hb : s.alive b = true
  · exact hb
  · have e : deref b s = .error (.ub .dangling) s := by unfold deref; rw [if_neg hb]
    unfold destroyP at h; rw [lm_bind, e] at h; cases h

theorem inv {s : Store σ} (hr : s.Reached dbg del) : Inv del s := by
  induction hr with
  | empty => exact ⟨.empty, fun b h => (by cases h), fun b _ => rfl, fun _ b h => (by cases h)⟩
  | @step s s' n op hr hv ht hd he ih =>
    have same : s'.heap = s.heap ∧ s'.alive = s.alive → Inv del s' := fun h => ih.same h.1 h.2
    cases op with
    | new k par name =>
      obtain ⟨k1, k2⟩ := makes_ok Makes.new he
      have hv' : TOp.valid s.heap (.new k par name) := by
        cases par with
        | none => trivial
        | some p => exact ⟨ih.born p hv.1, hv.2⟩
      have hn : (newBlock s.heap k par name).2.next = s.heap.next + 1 := by
        unfold newBlock
        cases par with
        | none => rfl
        | some p => exact C11.linkBlock_next _ _ _
      refine ⟨by rw [k1]; exact .step (.new k par name) ih.heap hv', ?_, ?_, ?_⟩
      · intro b hb
        rw [k2] at hb
        rw [k1, hn]
        by_cases e : b = s.heap.next
        · rw [e]; exact Nat.lt_succ_self _
        · simp only [upd, if_neg e] at hb
          exact Nat.lt_succ_of_lt (ih.born b hb)
      · rw [k1]
        have h1 : Heap.Leafy ⟨upd s.heap.node s.heap.next ⟨emend name, k, par, []⟩, s.heap.next + 1⟩ := by
          intro c hc
          by_cases e : c = s.heap.next
          · subst e; simp [Heap.kids, upd]
          · simp only [upd, if_neg e] at hc; simp only [Heap.kids, upd, if_neg e]; exact ih.leafy c hc
        unfold newBlock
        cases par with
        | none => exact h1
        | some p =>
          refine link_leafy h1 ?_
          have : p ≠ s.heap.next := Nat.ne_of_lt (ih.born p hv.1)
          simp [upd, this, hv.2]
      · intro hdel b hb
        rw [k1, hn] at hb
        rw [k2]
        by_cases e : b = s.heap.next
        · simp [upd, e]
        · simp only [upd, if_neg e]
          exact ih.all hdel b (by have h1 : b < s.heap.next + 1 := hb; have h2 : b ≠ s.heap.next := e; exact Nat.lt_of_le_of_ne (Nat.le_of_lt_succ h1) h2)
    | setParent b p =>
      obtain ⟨k1, k2⟩ := makes_ok Makes.setParent he
      refine ⟨by rw [k1]; exact .step (.setParent b p) ih.heap ⟨ih.born b hv.1, ih.born p hv.2.1, hv.2.2⟩, ?_, by rw [k1]; exact setParent_leafy ih.leafy hv.2.2, ?_⟩
      · rw [k1, k2, setParent_next]; exact ih.born
      · rw [k1, k2, setParent_next]; exact ih.all
    | linkBlock p b =>
      obtain ⟨k1, k2⟩ := makes_ok Makes.link he
      refine ⟨by rw [k1]; exact .step (.linkBlock p b) ih.heap ⟨ih.born b hv.1, ih.born p hv.2.1, hv.2.2⟩, ?_, by rw [k1]; exact link_leafy ih.leafy hv.2.2, ?_⟩
      · rw [k1, k2, C11.linkBlock_next]; exact ih.born
      · rw [k1, k2, C11.linkBlock_next]; exact ih.all
    | rename b name =>
      have hb : s.alive b = true := hv
      have he : renameP b name s = .ok () s' := he
      rw [rename_run hb] at he
      cases he
      refine ⟨.step (.rename b name) ih.heap (ih.born b hb), ih.born, fun c hc => ?_, ih.all⟩
      by_cases e : c = b
      · subst e; simp only [renameBlock, upd, if_true] at hc; simp only [renameBlock, Heap.kids, upd, if_true]; exact ih.leafy c hc
      · simp only [renameBlock, upd, if_neg e] at hc; simp only [renameBlock, Heap.kids, upd, if_neg e]; exact ih.leafy c hc
    | fullName b => exact same (surely_ok Surely.fullName rfl rfl he)
    | visit b cb lv m => exact same (surely_ok (Surely.visits fun b l => (ht b l).surely) rfl rfl he)
    | mark b flag => have := Surely.mark ih.leafy s rfl rfl _ _ he; exact same ⟨this.1, this.2.1⟩
    | step line b f => have := Surely.step ih.leafy (fun b => (ht b).surely) s rfl rfl _ _ he; exact same ⟨this.1, this.2.1⟩
    | process b act => exact same (surely_ok (Surely.process fun b => (ht b).surely) rfl rfl he)
    | destroy b =>
      have hb : s.alive b = true := hv
      have he : destroyP b s = .ok () s' := he
      rw [destroy_run hb] at he
      cases he
      refine ⟨ih.heap, fun c hc => ?_, ih.leafy, fun e => by rw [hd rfl] at e; cases e⟩
      by_cases e : c = b
      · subst e; simp [upd] at hc
      · simp only [upd, if_neg e] at hc; exact ih.born c hc

theorem lands_defined {α β : Type} {x : LM σ α} {f : α → β} {tr : List TraceInfo} {Q : α → Heap → (BlkId → Bool) → Prop} {s : Store σ} (hx : Lands tr Q (x s)) :
    Defined ((do let a ← x; pure (f a) : LM σ β) s) := by
  intro u s' e
  rw [lm_bind] at e
  revert hx e
  cases x s with
  | ok a s2 => intro _ e; cases e
  | error e s2 =>
    cases e with
    | ub u => exact fun h _ => h
    | exc e => intro _ e; cases e
    | fuel => intro _ e; cases e

theorem steady_defined {α : Type} {x : LM σ α} {Q : α → Prop} {s : Store σ} (hx : Steady s.heap s.alive x Q) : Defined (x s) := by
  intro u s' e
  have := hx s rfl rfl
  rw [e] at this
  exact this

/-- C62: a call does not run into undefined behaviour if none of the blocks it follows pointers to has been destroyed: the blocks it names; for
calls that pass through the hierarchy, everything below; if full names are mentioned - in debug builds, nearly always - the ancestors. -/
theorem C62_safe {s : Store σ} (hr : s.Reached dbg del) (op : LOp σ) (ht : op.Tame) (hc : ∀ x, op.Touches dbg s.heap x → s.alive x = true) (n : Nat) :
    Defined (op.exec dbg n s) := by
  have hi := inv hr
  have clear : ∀ b, (∀ x, s.heap.Below b x ∨ dbg = true ∧ s.heap.Above b x → s.alive x = true) → Clear dbg s.heap s.alive b :=
    fun b h => ⟨fun x hx => h x (.inl hx), fun hd x hx => h x (.inr ⟨hd, hx⟩)⟩
  cases op with
  | new k par name => exact lands_defined (Lands.new hc)
  | setParent b p => exact lands_defined (Lands.setParent hc)
  | linkBlock p b => exact lands_defined (Lands.link hc)
  | rename b name =>
    have hb : s.alive b = true := hc b rfl
    intro u s' e
    have e : renameP b name s = .error (.ub u) s' := e
    rw [rename_run hb] at e
    cases e
  | fullName b => exact lands_defined (Steady.lands (Steady.fullName hc))
  | visit b cb lv m => exact lands_defined (Steady.lands (Steady.visit hi.kids (fun b l => (ht b l).steady) (clear b hc)))
  | mark b flag => exact steady_defined (Steady.mark hi.kids (clear b hc))
  | step line b f => exact steady_defined (Steady.step hi.kids (fun b => (ht b).steady) (clear b hc))
  | process b act => exact lands_defined (Steady.lands (Steady.process hi.kids (fun b => (ht b).steady) (clear b hc)))
  | destroy b =>
    have hb : s.alive b = true := hc b rfl
    intro u s' e
    have e : destroyP b s = .error (.ub u) s' := e
    rw [destroy_run hb] at e
    cases e

/-- A destroyed block does not matter to calls that have no pointer to follow to it. -/
theorem C62_unrelated {s s' : Store σ} {k : Nat} (hr : s.Reached dbg true) (x : BlkId) (hx : LOp.exec dbg k (.destroy x) s = .ok () s') (op : LOp σ) (ht : op.Tame)
    (hc : ∀ y, op.Touches dbg s.heap y → s.alive y = true ∧ y ≠ x) (n : Nat) : Defined (op.exec dbg n s') := by
  have hx : destroyP x s = .ok () s' := hx
  have hb := destroy_alive hx
  have hr' : s'.Reached dbg true := .step (n := k) (.destroy x) hr hb trivial (fun _ => rfl) hx
  rw [destroy_run hb] at hx
  cases hx
  refine C62_safe hr' op ht (fun y hy => ?_) n
  obtain ⟨h1, h2⟩ := hc y hy
  show upd s.alive x false y = true
  simp only [upd, if_neg h2]
  exact h1

/-- What the calls that build the hierarchy return, none of the blocks they follow pointers to having been destroyed: `link_block` returns true if and only if the
argument has the submodel as its parent, `set_parent` if and only if the block had no parent or this one, the constructor makes a block that has not existed
before. -/
theorem C62_results {s s' : Store σ} {n : Nat} :
    (∀ p b r, (∀ x, LOp.Touches (σ := σ) dbg s.heap (.linkBlock p b) x → s.alive x = true) → linkBlockP dbg n p b s = .ok r s' → (r = true ↔ s.heap.parent b = some p)) ∧
    (∀ b p r, (∀ x, LOp.Touches (σ := σ) dbg s.heap (.setParent b p) x → s.alive x = true) → setParentP dbg n b p s = .ok r s' →
      (r = true ↔ s.heap.parent b = none ∨ s.heap.parent b = some p)) ∧
    (∀ k par name r, (∀ x, LOp.Touches (σ := σ) dbg s.heap (.new k par name) x → s.alive x = true) → newBlockP dbg n k par name s = .ok r s' →
      r = s.heap.next ∧ s'.alive r = true) := by
  refine ⟨fun p b r hc e => ?_, fun b p r hc e => ?_, fun k par name r hc e => ?_⟩
  · have := Lands.link (n := n) hc
    rw [e] at this
    exact this.1.2.2
  · have := Lands.setParent (n := n) hc
    rw [e] at this
    exact this.1.2.2
  · have := Lands.new (n := n) hc
    rw [e] at this
    obtain ⟨⟨_, h1, rfl⟩, _⟩ := this
    exact ⟨rfl, by rw [h1]; simp [upd]⟩

/-- Conversely: if a traversal returns, then nothing below the block has been destroyed; and if it mentions full names, no ancestor. -/
theorem C62_returned {s s' : Store σ} (hr : s.Reached dbg del) {n : Nat} {b : BlkId} :
    (∀ flag u, markP dbg flag n b s = .ok u s' → ∀ x, s.heap.Below b x → s.alive x = true) ∧
    (∀ line f u, (∀ b, Tame (f b)) → stepP dbg line f n b s = .ok u s' → ∀ x, s.heap.Below b x → s.alive x = true) ∧
    (∀ lv m u, lv + n ≤ m → visitP dbg (fun _ _ => pure true) n b lv m s = .ok u s' →
      ∀ x, s.heap.Below b x ∨ dbg = true ∧ s.heap.Above b x → s.alive x = true) ∧
    (∀ v, fullNameP n b s = .ok v s' → ∀ x, s.heap.Above b x → s.alive x = true) := by
  have hi := inv hr
  refine ⟨fun flag u e => (Surely.mark hi.leafy s rfl rfl _ _ e).2.2.1, fun line f u hf e => (Surely.step hi.leafy (fun b => (hf b).surely) s rfl rfl _ _ e).2.2.1,
    fun lv m u hm e => ?_, fun v e => (Surely.fullName s rfl rfl _ _ e).2.2⟩
  have := (Surely.visit hi.leafy (fun _ _ => .pure rfl) hm s rfl rfl _ _ e).2.2.2
  rintro x (hx | ⟨hd, hx⟩)
  · exact this.1 x hx
  · exact this.2 hd x hx

/-! ## Destroying blocks of a hierarchy that is still used -/

/-- The full claim: whatever has been destroyed, the blocks that are left can be used. -/
def C62_full : Prop := ∀ dbg (s : Store Unit) (op : LOp Unit) (n : Nat), s.Reached dbg true → op.Valid s → op.Tame → Defined (op.exec dbg n s)

/-- As long as no block has been destroyed, all calls are defined. -/
theorem C62_partial {s : Store σ} (hr : s.Reached dbg false) (op : LOp σ) (hv : op.Valid s) (ht : op.Tame) (n : Nat) : Defined (op.exec dbg n s) := by
  have hi := inv hr
  have hC := C11.C11_consistent hi.heap
  have hF := (C11.reachable_inv hi.heap).2
  have hA : ∀ b, s.alive b = true → ∀ x, s.heap.Above b x → s.alive x = true := by
    intro b hb x hx
    induction hx with
    | self => exact hb
    | up hp _ ih => exact ih (hi.all rfl _ (C12.parent_lt hC hF hp))
  have hB : ∀ b, s.alive b = true → ∀ x, s.heap.Below b x → s.alive x = true := by
    intro b hb x hx
    induction hx with
    | self => exact hb
    | @kid b c x hc _ ih =>
      refine ih (hi.all rfl _ ?_)
      rcases Nat.lt_or_ge c s.heap.next with h | h
      · exact h
      · have := (hF c h).1; rw [hi.kids b c hc] at this; cases this
  refine C62_safe hr op ht (fun x hx => ?_) n
  cases op with
  | new k par name =>
    cases par with
    | none => exact hx.elim
    | some p =>
      rcases hx with rfl | ⟨_, hx⟩
      · exact hv.1
      · exact hA p hv.1 x hx
  | setParent b p =>
    rcases hx with rfl | hx
    · exact hv.1
    · split at hx
      · rcases hx with rfl | ⟨_, hx⟩
        · exact hv.2.1
        · exact hA p hv.2.1 x hx
      · exact hA b hv.1 x hx
  | linkBlock p b =>
    rcases hx with rfl | ⟨_, hx⟩ | hx
    · exact hv.1
    · exact hA p hv.2.1 x hx
    · split at hx
      · subst hx; exact hv.2.1
      · exact hA b hv.1 x hx
  | rename b name => cases hx; exact hv
  | fullName b => exact hA b hv x hx
  | visit b cb lv m => exact hx.elim (hB b hv x) (fun h => hA b hv x h.2)
  | mark b flag => exact hx.elim (hB b hv x) (fun h => hA b hv x h.2)
  | step line b f => exact hx.elim (hB b hv x) (fun h => hA b hv x h.2)
  | process b act => exact hx.elim (hB b hv x) (fun h => hA b hv x h.2)
  | destroy b => cases hx; exact hv

/-- The state after a call. -/
def next (r : EStateM.Result Err (Store σ) Unit) : Store σ := match r with | .ok _ s => s | .error _ s => s

def isOk (r : EStateM.Result Err (Store σ) Unit) : Bool := match r with | .ok _ _ => true | .error _ _ => false

theorem eq_of_isOk {r : EStateM.Result Err (Store σ) Unit} (h : isOk r = true) : r = .ok () (next r) := by
  cases r with
  | ok u s => rfl
  | error e s => cases h

def isDangling (r : EStateM.Result Err (Store σ) Unit) : Bool := match r with | .error (.ub .dangling) _ => true | _ => false

theorem not_defined {r : EStateM.Result Err (Store σ) Unit} (h : isDangling r = true) : ¬ Defined r := by
  unfold isDangling at h
  split at h
  · exact fun hd => hd _ _ rfl
  · cases h

/-- `Submodel m(nullptr, "m"); Gain g(&m, "g");` -/
def built (dbg : Bool) : Store Unit := next (LOp.exec dbg 3 (.new false (some 0) (str "g")) (next (LOp.exec dbg 3 (.new true none (str "m")) (Store.empty ()))))

theorem built_reached (dbg del : Bool) : (built dbg).Reached dbg del := by
  have h1 : (next (LOp.exec dbg 3 (.new true none (str "m")) (Store.empty ()))).Reached dbg del :=
    .step (n := 3) (.new true none (str "m")) .empty trivial trivial (fun h => by cases h) (eq_of_isOk (by cases dbg <;> decide +kernel))
  exact .step (n := 3) (.new false (some 0) (str "g")) h1 (by cases dbg <;> exact ⟨by decide +kernel, by decide +kernel⟩) trivial (fun h => by cases h)
    (eq_of_isOk (by cases dbg <;> decide +kernel))

theorem without_reached (dbg : Bool) (b : BlkId) (hb : b = 0 ∨ b = 1) : (next (LOp.exec dbg 3 (.destroy b) (built dbg))).Reached dbg true := by
  refine .step (n := 3) (.destroy b) (built_reached dbg true) ?_ trivial (fun _ => rfl) (eq_of_isOk ?_)
  · rcases hb with rfl | rfl <;> (show (built dbg).alive _ = true; cases dbg <;> decide +kernel)
  · rcases hb with rfl | rfl <;> cases dbg <;> decide +kernel

/-- The claim is false in debug and release builds: after a block has been destroyed, evaluating its submodel follows the pointer that the submodel
still has. -/
theorem C62_child_refuted (dbg : Bool) : ¬ Defined (LOp.exec dbg 3 (.mark 0 fun _ => false) (next (LOp.exec dbg 3 (.destroy 1) (built dbg)))) ∧
    ¬ Defined (LOp.exec dbg 3 (.process 0 fun _ => pure true) (next (LOp.exec dbg 3 (.destroy 1) (built dbg)))) :=
  ⟨not_defined (by cases dbg <;> decide +kernel), not_defined (by cases dbg <;> decide +kernel)⟩

/-- It is also false for the children of a destroyed submodel: in debug builds, they cannot be processed any more; in any build, `full_name` follows the
pointer to the parent. -/
theorem C62_parent_refuted : ¬ Defined (LOp.exec true 3 (.process 1 fun _ => pure true) (next (LOp.exec true 3 (.destroy 0) (built true)))) ∧
    (∀ dbg, ¬ Defined (LOp.exec dbg 3 (.fullName 1) (next (LOp.exec dbg 3 (.destroy 0) (built dbg))))) ∧
    ∃ s', LOp.exec false 3 (.process 1 fun _ => pure true) (next (LOp.exec false 3 (.destroy 0) (built false))) = .ok () s' :=
  ⟨not_defined (by decide +kernel), fun dbg => not_defined (by cases dbg <;> decide +kernel), _, eq_of_isOk (by decide +kernel)⟩

theorem C62_refuted : ¬ C62_full := fun h =>
  (C62_child_refuted false).1 (h false _ (.mark 0 fun _ => false) 3 (without_reached false 1 (.inr rfl)) (show _ = true by decide +kernel) trivial)

/-- Before anything is destroyed, the submodel can be processed; after the block has been destroyed, the block of another hierarchy still can
(`C62_safe`, `C62_partial`, `C62_unrelated`, `C62_returned`). -/
example (dbg : Bool) : (built dbg).Reached dbg false ∧ (LOp.process 0 fun _ => pure true).Valid (built dbg) ∧ (LOp.process (σ := Unit) 0 fun _ => pure true).Tame ∧
    isOk (LOp.exec dbg 5 (.process 0 fun _ => pure true) (built dbg)) = true ∧
    (∀ x, (LOp.mark (σ := Unit) 1 fun _ => false).Touches false (built false).heap x → (next (LOp.exec false 3 (.destroy 0) (built false))).alive x = true) ∧
    isOk (LOp.exec false 3 (.mark 1 fun _ => false) (next (LOp.exec false 3 (.destroy 0) (built false)))) = true := by
  refine ⟨built_reached dbg false, ?_, fun b s => ⟨rfl, rfl, rfl⟩, by cases dbg <;> decide +kernel, fun x hx => ?_, by decide +kernel⟩
  · show (built dbg).alive 0 = true; cases dbg <;> decide +kernel
  · rcases hx with hx | ⟨h, _⟩
    · cases hx with
      | self => decide +kernel
      | kid hc _ => have : (built false).heap.kids 1 = [] := by decide +kernel
                    rw [this] at hc; cases hc
    · cases h

end Pooya.C62
