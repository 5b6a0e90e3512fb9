import Verif.Proof.Schedule
import Verif.Proof.Leafwise
import Verif.Proof.Moves

/-!
Two executions side by side.  `Eqv P x y Q`: from states related by `P`, `x` and `y` both throw, or both return, with results and final
states related by `Q`.
-/

namespace Pooya

set_option linter.unusedSectionVars false

section
variable {σ α β γ δ : Type}

def EqvOut (Q : α → β → σ → σ → Prop) : EStateM.Result Err σ α → EStateM.Result Err σ β → Prop
  | .ok a s1, .ok b s2 => Q a b s1 s2
  | .error _ _, .error _ _ => True
  | _, _ => False

def Eqv (P : σ → σ → Prop) (x : EStateM Err σ α) (y : EStateM Err σ β) (Q : α → β → σ → σ → Prop) : Prop :=
  ∀ s1 s2, P s1 s2 → EqvOut Q (x s1) (y s2)

theorem EqvOut.mono {Q Q' : α → β → σ → σ → Prop} {r1 : EStateM.Result Err σ α} {r2 : EStateM.Result Err σ β} (h : EqvOut Q r1 r2)
    (hQ : ∀ a b s1 s2, r1 = .ok a s1 → r2 = .ok b s2 → Q a b s1 s2 → Q' a b s1 s2) : EqvOut Q' r1 r2 := by
  cases r1 <;> cases r2 <;> first | exact hQ _ _ _ _ rfl rfl h | exact h

namespace Eqv
variable {P : σ → σ → Prop}

theorem bind {x : EStateM Err σ α} {y : EStateM Err σ β} {R : α → β → σ → σ → Prop} {f : α → EStateM Err σ γ} {g : β → EStateM Err σ δ}
    {Q : γ → δ → σ → σ → Prop} (h : Eqv P x y R) (hf : ∀ a b, Eqv (R a b) (f a) (g b) Q) : Eqv P (x >>= f) (y >>= g) Q := by
  intro s1 s2 hs
  have := h s1 s2 hs
  rw [bind_apply, bind_apply]
  cases hx : x s1 with
  | ok a s1' =>
    cases hy : y s2 with
    | ok b s2' => rw [hx, hy] at this; exact hf a b _ _ this
    | error e s2' => rw [hx, hy] at this; exact this.elim
  | error e s1' =>
    cases hy : y s2 with
    | ok b s2' => rw [hx, hy] at this; exact this.elim
    | error e' s2' => trivial

theorem weaken {x : EStateM Err σ α} {y : EStateM Err σ β} {P' : σ → σ → Prop} {Q Q' : α → β → σ → σ → Prop} (h : Eqv P x y Q)
    (hP : ∀ s1 s2, P' s1 s2 → P s1 s2) (hQ : ∀ a b s1 s2, Q a b s1 s2 → Q' a b s1 s2) : Eqv P' x y Q' :=
  fun s1 s2 hs => (h s1 s2 (hP s1 s2 hs)).mono (fun a b t1 t2 _ _ => hQ a b t1 t2)

theorem pure {a : α} {b : β} {Q : α → β → σ → σ → Prop} (h : ∀ s1 s2, P s1 s2 → Q a b s1 s2) :
    Eqv P (Pure.pure a) (Pure.pure b) Q := fun s1 s2 hs => h s1 s2 hs

theorem throw {e e' : Err} {Q : α → β → σ → σ → Prop} : Eqv P (throwE e : EStateM Err σ α) (throwE e' : EStateM Err σ β) Q :=
  fun _ _ _ => trivial

theorem ofTwin {x y : EStateM Err σ α} (h : Twin false P x y) : Eqv P x y (fun a b s1 s2 => a = b ∧ P s1 s2) := by
  intro s1 s2 hs
  have := h s1 s2 hs
  cases hx : x s1 <;> cases hy : y s2 <;> rw [hx, hy] at this <;> first | exact this | trivial | (cases this)

/-- Composition with an execution in between. -/
theorem trans {x : EStateM Err σ α} {y : EStateM Err σ β} {z : EStateM Err σ γ} {Q : σ → σ → Prop} (h1 : Eqv P x y (fun _ _ => Q))
    (h2 : Eqv P y z (fun _ _ => Q)) (hr : ∀ s1 s2, P s1 s2 → P s1 s1) (ht : ∀ a b c, Q a b → Q b c → Q a c) : Eqv P x z (fun _ _ => Q) := by
  intro s1 s2 hs
  have a1 := h1 s1 s1 (hr s1 s2 hs)
  have a2 := h2 s1 s2 hs
  cases hx : x s1 <;> cases hy : y s1 <;> cases hz : z s2 <;> rw [hx, hy] at a1 <;> rw [hy, hz] at a2 <;>
    first | exact ht _ _ _ a1 a2 | trivial | exact a1.elim | exact a2.elim

/-- A fact about the states that both executions preserve. -/
theorem andLeft {x : EStateM Err σ α} {y : EStateM Err σ β} {Q : α → β → σ → σ → Prop} {I J : σ → Prop} (h : Eqv P x y Q)
    (hx : ∀ s a s', I s → x s = .ok a s' → J s') : Eqv (fun s1 s2 => P s1 s2 ∧ I s1) x y (fun a b s1 s2 => Q a b s1 s2 ∧ J s1) :=
  fun s1 s2 hs => (h s1 s2 hs.1).mono (fun a _ t1 _ e _ hq => ⟨hq, hx s1 a t1 hs.2 e⟩)

end Eqv
end

variable {K : Type}

theorem SameView.refl (w : World K) : SameView w w := ⟨fun _ => rfl, fun _ => rfl, fun _ _ => rfl, fun _ => rfl, fun _ _ => rfl⟩

theorem SameView.symm {w1 w2 : World K} (h : SameView w1 w2) : SameView w2 w1 :=
  ⟨fun s => (h.ty s).symm, fun s => (h.assigned s).symm, fun s hs => (h.value s (by rw [h.assigned]; exact hs)).symm,
    fun b => (h.mem b).symm, by simp⟩

theorem SameView.trans {w1 w2 w3 : World K} (h : SameView w1 w2) (h' : SameView w2 w3) : SameView w1 w3 :=
  ⟨fun s => (h.ty s).trans (h'.ty s), fun s => (h.assigned s).trans (h'.assigned s),
    fun s hs => (h.value s hs).trans (h'.value s (by rw [← h.assigned]; exact hs)), fun b => (h.mem b).trans (h'.mem b), by simp⟩

theorem SameView.cell {w1 w2 : World K} (h : SameView w1 w2) (s : SigId) : CellEq (w1.sig s) (w2.sig s) := ⟨h.ty s, h.assigned s, h.value s⟩

theorem sameView_of {w1 w2 : World K} (h : ∀ s, CellEq (w1.sig s) (w2.sig s)) (hm : ∀ b, w1.mem b = w2.mem b) : SameView w1 w2 :=
  ⟨fun s => (h s).ty, fun s => (h s).assigned, fun s => (h s).value, hm, by simp⟩

/-- In debug builds nothing depends on values of unassigned signals. -/
theorem view_core : TwinCore (K := K) false SameView true true where
  mode := Or.inl rfl
  tys w1 w2 h := h.ty
  asgs w1 w2 h := h.assigned
  getv s := by
    intro w1 w2 h
    unfold getv
    rw [← h.assigned s]
    cases ha : (w1.sig s).assigned with
    | false => exact Or.inr ⟨rfl, h⟩
    | true =>
      rw [← h.value s ha]
      simp only [Bool.not_true, Bool.and_false, Bool.false_eq_true, if_false]
      split
      · exact Or.inr ⟨rfl, h⟩
      · exact ⟨rfl, h⟩
  setv s v := by
    intro w1 w2 h
    unfold setv
    rw [← h.assigned s, ← h.ty s]
    split
    · exact Or.inr ⟨rfl, h⟩
    · split
      · exact Or.inr ⟨rfl, h⟩
      · split
        · exact Or.inr ⟨rfl, h⟩
        · refine ⟨rfl, sameView_of (fun s' => ?_) h.mem⟩
          by_cases e : s' = s
          · subst e; simp only [upd, if_true]; exact ⟨h.ty s', rfl, fun _ => rfl⟩
          · simp only [upd, e, if_false]; exact h.cell s'
  clearv s := fun w1 w2 h => by
    refine ⟨rfl, sameView_of (fun s' => ?_) h.mem⟩
    by_cases e : s' = s
    · subst e; simp only [upd, if_true]; exact ⟨h.ty s', rfl, by simp⟩
    · simp only [upd, e, if_false]; exact h.cell s'
  getMem b := fun w1 w2 h => ⟨h.mem b, h⟩
  setMem b m := fun w1 w2 h => ⟨rfl, sameView_of h.cell (fun b' => by
    by_cases e : b' = b
    · subst e; simp only [upd, if_true]
    · simp only [upd, e, if_false]; exact h.mem b')⟩
  emit e := fun w1 w2 h => ⟨rfl, sameView_of h.cell h.mem⟩

/-! ### Effects of different blocks commute -/

/-- Only signals in `O` and the members of block `b` are changed. -/
def Only (O : SigId → Prop) (b : BlkId) (w w' : World K) : Prop := (∀ s, ¬ O s → w'.sig s = w.sig s) ∧ ∀ c, c ≠ b → w'.mem c = w.mem c

/-- The effect of a block that looks at and changes only the signals in `S` and its own members. -/
structure Local (O S : SigId → Prop) (b : BlkId) (x : M K Unit) : Prop where
  only : ∀ w w', x w = .ok () w' → Only O b w w'
  rel : Rel (fun _ => False) S b x
  sub : ∀ s, O s → S s

theorem SameView.alike {w1 w2 : World K} (h : SameView w1 w2) {O S : SigId → Prop} {b c : BlkId} {w1' : World K} (ho : Only O c w1 w1')
    (hd : ∀ s, S s → ¬ O s) (hbc : b ≠ c) : Alike (fun _ => False) S b w1' w2 :=
  ⟨fun s hs => by rw [ho.1 s (hd s hs)]; exact h.cell s, fun _ h => h.elim, by rw [ho.2 b hbc]; exact h.mem b⟩

/-- Effects of two blocks in either order. -/
theorem Local.swap {O1 S1 O2 S2 : SigId → Prop} {b1 b2 : BlkId} {x y : M K Unit} (hx : Local O1 S1 b1 x) (hy : Local O2 S2 b2 y)
    (hb : b1 ≠ b2) (h12 : ∀ s, S1 s → ¬ O2 s) (h21 : ∀ s, S2 s → ¬ O1 s) :
    Eqv SameView (do x; y) (do y; x) (fun _ _ => SameView) := by
  intro w1 w2 h
  rw [bind_apply, bind_apply]
  cases e1 : x w1 with
  | error e w1' =>
    cases e2 : y w2 with
    | error e' w2' => trivial
    | ok u w2' =>
      have o2 := hy.only w2 w2' e2
      have := hx.rel w2' w1 (h.symm.alike o2 h12 hb)
      rw [e1] at this
      dsimp only
      cases e3 : x w2' with
      | error e w2'' => trivial
      | ok u w2'' => rw [e3] at this; cases this
  | ok u w1' =>
    have o1 := hx.only w1 w1' e1
    have r2 := hy.rel w1' w2 (h.alike o1 h21 (Ne.symm hb))
    dsimp only
    cases e3 : y w1' with
    | error e w1'' =>
      rw [e3] at r2
      obtain ⟨w2', e2, _⟩ := r2.error_inv
      rw [e2]
      trivial
    | ok u w1'' =>
      rw [e3] at r2
      obtain ⟨w2', e2, a2⟩ := r2.ok_inv
      rw [e2]
      have o2 := hy.only w2 w2' e2
      have r1 := hx.rel w2' w1 (h.symm.alike o2 h12 hb)
      rw [e1] at r1
      dsimp only
      cases e4 : x w2' with
      | error e w2'' => rw [e4] at r1; cases r1
      | ok u w2'' =>
        rw [e4] at r1
        obtain ⟨w1x, e5, a1⟩ := r1.ok_inv
        cases e5
        have p1 := hy.only w1' w1'' e3
        have p2 := hx.only w2' w2'' e4
        refine sameView_of (fun s => ?_) (fun b => ?_)
        · by_cases hs1 : O1 s
          · have hn : ¬ O2 s := h12 s (hx.sub s hs1)
            rw [p1.1 s hn]
            exact (a1.cell s (hx.sub s hs1)).symm
          · by_cases hs2 : O2 s
            · rw [p2.1 s hs1]
              exact a2.cell s (hy.sub s hs2)
            · rw [p1.1 s hs2, o1.1 s hs1, p2.1 s hs1, o2.1 s hs2]
              exact h.cell s
        · by_cases hb1 : b = b1
          · subst hb1
            rw [p1.2 b hb]; exact a1.mem.symm
          · by_cases hb2 : b = b2
            · subst hb2
              rw [p2.2 b hb1]; exact a2.mem
            · rw [p1.2 b hb2, o1.2 b hb1, p2.2 b hb1, o2.2 b hb2]
              exact h.mem b

/-- Running the same effects in another order. -/
def eachDo (f : Leaf K → M K Unit) : List (Leaf K) → M K Unit
  | [] => pure ()
  | l :: ls => do f l; eachDo f ls

theorem eachDo_perm {f : Leaf K → M K Unit} {O S : Leaf K → SigId → Prop} (htw : ∀ l, Twin false SameView (f l) (f l))
    (hloc : ∀ l, Local (O l) (S l) l.id (f l)) {l1 l2 : List (Leaf K)} (hp : l1.Perm l2) (hn : (l1.map Leaf.id).Nodup)
    (hd : ∀ l ∈ l1, ∀ l' ∈ l1, l.id ≠ l'.id → ∀ s, S l s → ¬ O l' s) : Eqv SameView (eachDo f l1) (eachDo f l2) (fun _ _ => SameView) := by
  have tw : ∀ ls, Twin false SameView (eachDo f ls) (eachDo f ls) := by
    intro ls
    induction ls with
    | nil => exact Twin.pure _
    | cons l ls ih => exact Twin.bind (htw l) (fun _ => ih)
  induction hp with
  | nil => exact Eqv.pure (fun _ _ h => h)
  | @cons l l1 l2 hp ih =>
    simp only [List.map_cons, List.nodup_cons] at hn
    refine Eqv.bind (Eqv.ofTwin (htw l)) (fun a b => ?_)
    exact (ih hn.2 (fun l hl l' hl' => hd l (by simp [hl]) l' (by simp [hl']))).weaken (fun _ _ h => h.2) (fun _ _ _ _ h => h)
  | @swap a b ls =>
    simp only [List.map_cons, List.nodup_cons, List.mem_cons, not_or] at hn
    have hs : Eqv SameView (do f b; f a) (do f a; f b) (fun _ _ => SameView) :=
      (hloc b).swap (hloc a) hn.1.1 (hd b (by simp) a (by simp) hn.1.1) (hd a (by simp) b (by simp) (Ne.symm hn.1.1))
    have := Eqv.bind hs (fun _ _ => (Eqv.ofTwin (tw ls)).weaken (fun _ _ h => h) (fun _ _ _ _ h => h.2))
    simp only [bind_assoc] at this
    exact this
  | @trans l1 l2 l3 hp1 hp2 ih1 ih2 =>
    refine (ih1 hn hd).trans (ih2 ?_ ?_) (fun s1 _ _ => SameView.refl s1) (fun _ _ _ => SameView.trans)
    · exact (hp1.map Leaf.id).nodup_iff.1 hn
    · exact fun l hl l' hl' => hd l (hp1.mem_iff.2 hl) l' (hp1.mem_iff.2 hl')

section
variable [Arith K]

theorem preAll_each (t : K) (ls : List (Leaf K)) : preAll true t ls = eachDo (fun l => l.pre true t) ls := by
  induction ls with
  | nil => rfl
  | cons l ls ih => simp only [preAll, eachDo, ih]

theorem postAll_each (t : K) (ls : List (Leaf K)) : postAll true t ls = eachDo (fun l => l.post true t) ls := by
  induction ls with
  | nil => rfl
  | cons l ls ih => simp only [postAll, eachDo, ih]

theorem pre_local (t : K) (l : Leaf K) : Local (· ∈ l.preOuts) (· ∈ l.preOuts) l.id (l.pre true t) where
  only w w' h := by
    have := moves_pre true t l (T := Only (· ∈ l.preOuts) l.id) (fun w w' hw => ⟨hw.sig, hw.mem⟩) w
    rw [h] at this; exact this
  rel := Rel.bind (Rel.emit _) (fun _ => rel_preBody true l t (fun _ h => h))
  sub _ h := h

theorem post_local (t : K) (l : Leaf K) : Local (fun _ => False) (· ∈ l.postReads) l.id (l.post true t) where
  only w w' h := by
    have := moves_post true t l (T := Only (fun _ => False) l.id) (fun w w' hw => ⟨hw.sig, hw.mem⟩) w
    rw [h] at this; exact this
  rel := Rel.bind (Rel.emit _) (fun _ => rel_postBody true l t (fun _ h => ⟨h, .inl rfl⟩))
  sub _ h := h.elim

/-- `pre_step` of the same leaves in another order. -/
theorem preAll_perm (t : K) {l1 l2 : List (Leaf K)} (hp : l1.Perm l2) (hn : (l1.map Leaf.id).Nodup)
    (hd : ∀ l ∈ l1, ∀ l' ∈ l1, ∀ s, s ∈ l.preOuts → s ∈ l'.preOuts → l.id = l'.id) :
    Eqv SameView (preAll true t l1) (preAll true t l2) (fun _ _ => SameView) := by
  rw [preAll_each, preAll_each]
  exact eachDo_perm (fun l => view_core.pre l t) (fun l => pre_local t l) hp hn
    (fun l hl l' hl' hne s hs hs' => hne (hd l hl l' hl' s hs hs'))

/-- `post_step` of the same leaves in another order. -/
theorem postAll_perm (t : K) {l1 l2 : List (Leaf K)} (hp : l1.Perm l2) (hn : (l1.map Leaf.id).Nodup) :
    Eqv SameView (postAll true t l1) (postAll true t l2) (fun _ _ => SameView) := by
  rw [postAll_each, postAll_each]
  exact eachDo_perm (fun l => view_core.post l t) (fun l => post_local t l) hp hn (fun _ _ _ _ _ _ _ h => h)

end
end Pooya
