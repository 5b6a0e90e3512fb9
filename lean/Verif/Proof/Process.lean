import Verif.Proof.Sched

/-! The loops of the simulators realise complete schedules. -/

namespace Pooya

set_option linter.unusedSectionVars false

variable {K : Type} [Arith K] {dbg : Bool} {t : K} {I : BlkId → Prop}

/-! ### Schedules without wiring assumptions -/

/-- Facts about schedules of any diagram. -/
structure StepsBasic (I : BlkId → Prop) (t : K) (w : World K) (ls : List (Leaf K)) (w' : World K) : Prop where
  done : ∀ x, I x → (w'.done x = true ↔ w.done x = true ∨ x ∈ ls.map Leaf.id)
  fresh : ∀ l ∈ ls, w.done l.id = false
  nodup : (ls.map Leaf.id).Nodup
  mono : ∀ s, (w.sig s).assigned = true → (w'.sig s).assigned = true
  other : ∀ s, (∀ l ∈ ls, s ∉ l.outs) → w'.sig s = w.sig s
  mem : ∀ b, (∀ l ∈ ls, l.id ≠ b) → w'.mem b = w.mem b
  log : w'.log = (ls.map (fun l => Event.act l.id t)).reverse ++ w.log

theorem Steps.basic {w w' : World K} {ls : List (Leaf K)} (h : Steps dbg t I w ls w')
    (hI : ∀ l ∈ ls, I l.id) : StepsBasic I t w ls w' := by
  induction h with
  | nil w => exact ⟨by simp, by simp, by simp, fun _ h => h, fun _ _ => rfl, fun _ _ => rfl, by simp⟩
  | @act l w w1 w' ls hen hact _ ih =>
    have hw := act_within hact
    have hd : w1.done = w.done := hw.done
    have ih := ih (fun l hl => hI l (by simp [hl]))
    refine ⟨?_, ?_, ?_, ?_, ?_, ?_, ?_⟩
    · intro x hx
      rw [ih.done x hx]
      by_cases e : x = l.id
      · subst e; simp [upd]
      · simp [upd, e, hd]
    · intro l' hl'
      rcases List.mem_cons.1 hl' with rfl | hl'
      · exact hen.1
      · have := ih.fresh l' hl'
        by_cases e : l'.id = l.id
        · simp [upd, e] at this
        · simpa [upd, e, hd] using this
    · simp only [List.map_cons]
      refine List.nodup_cons.2 ⟨?_, ih.nodup⟩
      intro hm
      obtain ⟨l', hl', e⟩ := List.mem_map.1 hm
      have := ih.fresh l' hl'
      simp [upd, e] at this
    · intro s hs; exact ih.mono s (hw.mono s hs)
    · intro s hs
      rw [ih.other s (fun l' hl' => hs l' (by simp [hl']))]
      exact hw.sig s (hs l (by simp))
    · intro b hb
      rw [ih.mem b (fun l' hl' => hb l' (by simp [hl']))]
      exact hw.mem b (fun e => hb l (by simp) e.symm)
    · rw [ih.log]
      have : w1.log = .act l.id t :: w.log := hw.log
      simp [this]
  | @flag i d w w' ls hi _ ih =>
    have hid : ∀ x, I x → upd w.done i d x = w.done x := by
      intro x hx
      have : x ≠ i := fun e => hi (e ▸ hx)
      simp [upd, this]
    have ih := ih hI
    refine ⟨?_, ?_, ih.nodup, ih.mono, ih.other, ih.mem, ih.log⟩
    · intro x hx; rw [ih.done x hx]; simp only [hid x hx]
    · intro l hl; have := ih.fresh l hl; simpa only [hid _ (hI l hl)] using this

theorem Steps.append {w w1 w2 : World K} {a b : List (Leaf K)} (h1 : Steps dbg t I w a w1)
    (h2 : Steps dbg t I w1 b w2) : Steps dbg t I w (a ++ b) w2 := by
  induction h1 with
  | nil w => exact h2
  | act hen hact _ ih => exact .act hen hact (ih h2)
  | flag hi _ ih => exact .flag hi (ih h2)

theorem Steps.one {l : Leaf K} {w w1 : World K} (hen : Enabled l w) (hact : l.act dbg t w = .ok () w1) :
    Steps dbg t I w [l] { w1 with done := upd w1.done l.id true } := .act hen hact (.nil _)

theorem Steps.setFlag {i : BlkId} (hi : ¬ I i) (w : World K) (d : Bool) :
    Steps dbg t I w [] { w with done := upd w.done i d } := .flag hi (.nil _)

/-- Being enabled depends only on signals and the own flag. -/
theorem enabled_congr {l : Leaf K} {w w' : World K} (hs : ∀ s, (w'.sig s).assigned = (w.sig s).assigned)
    (hd : w'.done l.id = w.done l.id) : Enabled l w' ↔ Enabled l w := by
  simp only [Enabled, hs, hd]

theorem Steps.nil_enabled {w w' : World K} (h : Steps dbg t I w [] w') {l : Leaf K} (hl : I l.id) :
    Enabled l w' ↔ Enabled l w := by
  have hb := h.basic (by simp)
  refine enabled_congr (fun s => by rw [hb.other s (by simp)]) ?_
  have := hb.done l.id hl
  simp at this
  cases h1 : w'.done l.id <;> cases h2 : w.done l.id <;> simp_all

/-- What the evaluation of some blocks does, successful or not: it runs leaves of `L` one after the
other, each when enabled; `Q` describes the successful outcomes. -/
def Evals (dbg : Bool) (t : K) (I : BlkId → Prop) (L : List (Leaf K)) {α : Type} (x : M K α) (w : World K)
    (Q : α → List (Leaf K) → World K → Prop) : Prop :=
  match x w with
  | .ok a w' => ∃ ls, (∀ l ∈ ls, l ∈ L) ∧ Steps dbg t I w ls w' ∧ Q a ls w'
  | .error e w' => ∃ ls wm, (∀ l ∈ ls, l ∈ L) ∧ Steps dbg t I w ls wm ∧ FailsAt dbg t L wm e w'

theorem Evals.mono {L L' : List (Leaf K)} {α : Type} {x : M K α} {w : World K}
    {Q Q' : α → List (Leaf K) → World K → Prop} (h : Evals dbg t I L x w Q) (hL : ∀ l ∈ L, l ∈ L')
    (hQ : ∀ a ls w', (∀ l ∈ ls, l ∈ L) → Steps dbg t I w ls w' → Q a ls w' → Q' a ls w') :
    Evals dbg t I L' x w Q' := by
  unfold Evals at *
  cases hx : x w with
  | ok a w' =>
    rw [hx] at h
    obtain ⟨ls, h1, h2, h3⟩ := h
    exact ⟨ls, fun l hl => hL l (h1 l hl), h2, hQ a ls w' h1 h2 h3⟩
  | error e w' =>
    rw [hx] at h
    obtain ⟨ls, wm, h1, h2, l, h3, h4⟩ := h
    exact ⟨ls, wm, fun l hl => hL l (h1 l hl), h2, l, hL l h3, h4⟩

theorem Evals.bind {L : List (Leaf K)} {α β : Type} {x : M K α} {f : α → M K β} {w : World K}
    {Q : α → List (Leaf K) → World K → Prop} {R : β → List (Leaf K) → World K → Prop}
    (h : Evals dbg t I L x w Q)
    (hf : ∀ a ls w', (∀ l ∈ ls, l ∈ L) → Steps dbg t I w ls w' → Q a ls w' →
      Evals dbg t I L (f a) w' (fun b ls' w'' => R b (ls ++ ls') w'')) :
    Evals dbg t I L (x >>= f) w R := by
  unfold Evals at h ⊢
  rw [bind_apply]
  cases hx : x w with
  | ok a w' =>
    rw [hx] at h
    obtain ⟨ls, h1, h2, h3⟩ := h
    have := hf a ls w' h1 h2 h3
    unfold Evals at this
    simp only
    cases hy : f a w' with
    | ok b w'' =>
      rw [hy] at this
      obtain ⟨ls', g1, g2, g3⟩ := this
      refine ⟨ls ++ ls', ?_, h2.append g2, g3⟩
      intro l hl
      rcases List.mem_append.1 hl with hl | hl
      · exact h1 l hl
      · exact g1 l hl
    | error e w'' =>
      rw [hy] at this
      obtain ⟨ls', wm, g1, g2, g3⟩ := this
      refine ⟨ls ++ ls', wm, ?_, h2.append g2, g3⟩
      intro l hl
      rcases List.mem_append.1 hl with hl | hl
      · exact h1 l hl
      · exact g1 l hl
  | error e w' =>
    rw [hx] at h
    exact h

theorem Evals.pure {L : List (Leaf K)} {α : Type} {a : α} {w : World K}
    {Q : α → List (Leaf K) → World K → Prop} (h : Q a [] w) :
    Evals dbg t I L (Pure.pure a : M K α) w Q := ⟨[], by simp, .nil w, h⟩

/-! ### A single leaf -/

theorem evals_leaf (l : Leaf K) (w : World K) :
    Evals dbg t I [l] (l.process dbg t) w (fun n ls w' =>
      n = ls.length ∧ (n = 0 → ¬ Enabled l w') ∧ (∀ x, x ≠ l.id → w'.done x = w.done x) ∧
      (w'.done l.id = true ↔ w.done l.id = true ∨ ls = [l]) ∧ (ls = [] ∨ ls = [l])) := by
  unfold Leaf.process
  simp only [Evals, bind_apply, getDone, get_apply]
  by_cases hd : w.done l.id = true
  · simp only [hd, Bool.true_or, if_true, pure_apply]
    refine ⟨[], by simp, .nil w, ?_⟩
    simp [Enabled, hd]
  · have hd : w.done l.id = false := by simpa using hd
    by_cases hr : l.ready w = true
    · simp only [hd, hr, Bool.not_true, Bool.or_false]
      have hen : Enabled l w := ⟨hd, (ready_iff l w).1 hr⟩
      rw [if_neg (by simp)]
      cases ha : l.act dbg t w with
      | ok u w1 =>
        simp only [bind_apply, setDone, ha, pure_apply]
        have hwd : w1.done = w.done := (act_within ha).done
        refine ⟨[l], by simp, .one hen ha, by simp, by simp, ?_, by simp [upd], Or.inr rfl⟩
        intro x hx
        simp [upd, hx, hwd]
      | error e w1 =>
        simp only [bind_apply, ha]
        exact ⟨[], w, by simp, .nil w, l, by simp, hen, ha⟩
    · simp only [Bool.not_eq_true] at hr
      simp only [hd, hr, Bool.not_false, Bool.or_true, if_true, pure_apply]
      refine ⟨[], by simp, .nil w, by simp, fun _ h => ?_, by simp, by simp, Or.inl rfl⟩
      rw [(ready_iff l w).2 h.2] at hr; cases hr

/-! ### Objects of a hierarchy -/

def idsL (bs : List (Block K)) : List BlkId := (allL bs).map Block.id

/-- Ids of the submodels. -/
def Block.isLeaf : Block K → Bool
  | .leaf _ => true
  | .sub _ _ _ => false

theorem ids_leaf (l : Leaf K) : (Block.leaf l).ids = [l.id] := by simp [Block.ids, Block.all, Block.id]

theorem ids_sub (i : BlkId) (ls : List (SigId × Flags)) (kids : List (Block K)) :
    (Block.sub i ls kids).ids = i :: idsL kids := by simp [Block.ids, idsL, Block.all, Block.id]

theorem idsL_nil : idsL ([] : List (Block K)) = [] := by simp [idsL, allL]

theorem idsL_cons (b : Block K) (bs : List (Block K)) : idsL (b :: bs) = b.ids ++ idsL bs := by
  simp [idsL, Block.ids, allL]

theorem id_mem_ids (b : Block K) : b.id ∈ b.ids := by
  cases b <;> simp [ids_leaf, ids_sub, Block.id]

theorem self_mem_all (b : Block K) : b ∈ b.all := by cases b <;> simp [Block.all]

mutual
theorem leaf_mem_all (b : Block K) : ∀ l, l ∈ b.leaves ↔ Block.leaf l ∈ b.all := by
  intro l
  cases b with
  | leaf l' => simp [Block.leaves, Block.all]
  | sub i ls kids => simp [Block.leaves, Block.all, leaf_mem_allL kids l]
theorem leaf_mem_allL (bs : List (Block K)) : ∀ l, l ∈ leavesL bs ↔ Block.leaf l ∈ allL bs := by
  intro l
  cases bs with
  | nil => simp [leavesL, allL]
  | cons b bs => simp [leavesL, allL, leaf_mem_all b l, leaf_mem_allL bs l]
end

mutual
theorem leaves_sublist (b : Block K) : (b.leaves.map Leaf.id).Sublist b.ids := by
  cases b with
  | leaf l => simp [Block.leaves, ids_leaf]
  | sub i ls kids =>
    simp only [Block.leaves, ids_sub]
    exact (leaves_sublistL kids).cons _
theorem leaves_sublistL (bs : List (Block K)) : ((leavesL bs).map Leaf.id).Sublist (idsL bs) := by
  cases bs with
  | nil => simp [leavesL]
  | cons b bs =>
    simp only [leavesL, List.map_append, idsL_cons]
    exact (leaves_sublist b).append (leaves_sublistL bs)
end

mutual
theorem all_sub_all (b : Block K) : ∀ c ∈ b.all, ∀ d ∈ c.all, d ∈ b.all := by
  cases b with
  | leaf l =>
    intro c hc d hd
    simp only [Block.all, List.mem_singleton] at hc
    subst hc; exact hd
  | sub i ls kids =>
    intro c hc d hd
    simp only [Block.all, List.mem_cons] at hc
    rcases hc with rfl | hc
    · exact hd
    · simp only [Block.all, List.mem_cons]
      exact Or.inr (all_sub_allL kids c hc d hd)
theorem all_sub_allL (bs : List (Block K)) : ∀ c ∈ allL bs, ∀ d ∈ c.all, d ∈ allL bs := by
  cases bs with
  | nil => intro c hc; simp [allL] at hc
  | cons b bs =>
    intro c hc d hd
    simp only [allL, List.mem_append] at hc ⊢
    rcases hc with hc | hc
    · exact Or.inl (all_sub_all b c hc d hd)
    · exact Or.inr (all_sub_allL bs c hc d hd)
end

theorem leaves_sub_leaves {b c : Block K} (hc : c ∈ b.all) {l : Leaf K} (hl : l ∈ c.leaves) : l ∈ b.leaves :=
  (leaf_mem_all b l).2 (all_sub_all b c hc _ ((leaf_mem_all c l).1 hl))

theorem mem_allL {bs : List (Block K)} {b : Block K} (h : b ∈ bs) : ∀ c ∈ b.all, c ∈ allL bs := by
  induction bs with
  | nil => cases h
  | cons a bs ih =>
    intro c hc
    simp only [allL, List.mem_append]
    rcases List.mem_cons.1 h with rfl | h
    · exact Or.inl hc
    · exact Or.inr (ih h c hc)

/-! ### Flags of submodels -/

/-- A processed object has all objects in it processed. -/
def Closed (cs : List (Block K)) (w : World K) : Prop :=
  ∀ c ∈ cs, w.done c.id = true → ∀ x ∈ c.ids, w.done x = true

/-- An object is processed exactly when all leaves in it are. -/
def Exact (cs : List (Block K)) (w : World K) : Prop :=
  ∀ c ∈ cs, (w.done c.id = true ↔ ∀ l ∈ c.leaves, w.done l.id = true)

theorem closed_congr {cs : List (Block K)} {w w' : World K}
    (h : ∀ c ∈ cs, ∀ x ∈ c.ids, w'.done x = w.done x) (hc : Closed cs w) : Closed cs w' := by
  intro c hcs hd x hx
  rw [h c hcs x hx]
  exact hc c hcs (by rw [← h c hcs c.id (id_mem_ids c)]; exact hd) x hx

theorem leaf_id_mem_ids {c : Block K} {l : Leaf K} (hl : l ∈ c.leaves) : l.id ∈ c.ids :=
  (leaves_sublist c).subset (List.mem_map_of_mem hl)

theorem exact_congr {cs : List (Block K)} {w w' : World K}
    (h : ∀ c ∈ cs, ∀ x ∈ c.ids, w'.done x = w.done x) (hc : Exact cs w) : Exact cs w' := by
  intro c hcs
  rw [h c hcs c.id (id_mem_ids c), hc c hcs]
  constructor
  · intro h' l hl; rw [h c hcs l.id (leaf_id_mem_ids hl)]; exact h' l hl
  · intro h' l hl; rw [← h c hcs l.id (leaf_id_mem_ids hl)]; exact h' l hl

theorem ids_of_mem_all {b c : Block K} (hc : c ∈ b.all) : ∀ x ∈ c.ids, x ∈ b.ids := by
  intro x hx
  obtain ⟨d, hd, rfl⟩ := List.mem_map.1 hx
  exact List.mem_map_of_mem (all_sub_all b c hc d hd)

theorem ids_of_mem_allL {bs : List (Block K)} {c : Block K} (hc : c ∈ allL bs) : ∀ x ∈ c.ids, x ∈ idsL bs := by
  intro x hx
  obtain ⟨d, hd, rfl⟩ := List.mem_map.1 hx
  exact List.mem_map_of_mem (all_sub_allL bs c hc d hd)

/-- Ids of submodels of a hierarchy are not in `I`, ids of leaves are. -/
def Sorted (I : BlkId → Prop) (cs : List (Block K)) : Prop :=
  ∀ c ∈ cs, if c.isLeaf then I c.id else ¬ I c.id

theorem allL_eq_nil_leaf {bs : List (Block K)} {l : Leaf K} (h : l ∈ leavesL bs) :
    ∃ b ∈ bs, l ∈ b.leaves := by
  induction bs with
  | nil => simp [leavesL] at h
  | cons b bs ih =>
    simp only [leavesL, List.mem_append] at h
    rcases h with h | h
    · exact ⟨b, by simp, h⟩
    · obtain ⟨b', hb, hl⟩ := ih h; exact ⟨b', by simp [hb], hl⟩

theorem idsL_exists {bs : List (Block K)} {x : BlkId} (h : x ∈ idsL bs) : ∃ b ∈ bs, x ∈ b.ids := by
  induction bs with
  | nil => simp [idsL_nil] at h
  | cons b bs ih =>
    simp only [idsL_cons, List.mem_append] at h
    rcases h with h | h
    · exact ⟨b, by simp, h⟩
    · obtain ⟨b', hb, hl⟩ := ih h; exact ⟨b', by simp [hb], hl⟩

theorem leavesL_of_mem {bs : List (Block K)} {b : Block K} (hb : b ∈ bs) {l : Leaf K} (hl : l ∈ b.leaves) :
    l ∈ leavesL bs := by
  induction bs with
  | nil => cases hb
  | cons a bs ih =>
    simp only [leavesL, List.mem_append]
    rcases List.mem_cons.1 hb with rfl | h
    · exact Or.inl hl
    · exact Or.inr (ih h)

/-- Post-condition of `Block.process`. -/
structure ProcPost (b : Block K) (w : World K) (n : Nat) (ls : List (Leaf K)) (w' : World K) : Prop where
  count : n = ls.length
  stuck : n = 0 → ∀ l ∈ b.leaves, ¬ Enabled l w'
  frame : ∀ x, x ∉ b.ids → w'.done x = w.done x
  closed : Closed b.all w'
  exact : Exact b.all w'

/-- Post-condition of the loop of `Submodel::process`. -/
structure ProcPostL (i : BlkId) (bs : List (Block K)) (w : World K) (n : Nat) (ls : List (Leaf K))
    (w' : World K) : Prop where
  count : n = ls.length
  stuck : n = 0 → ∀ l ∈ leavesL bs, ¬ Enabled l w'
  frame : ∀ x, x ≠ i → x ∉ idsL bs → w'.done x = w.done x
  flag : w'.done i = true ↔ w.done i = true ∧ ∀ b ∈ bs, w'.done b.id = true
  closed : Closed (allL bs) w'
  exact : Exact (allL bs) w'

mutual
theorem evals_process (b : Block K) (w : World K) (hn : b.ids.Nodup) (hs : Sorted I b.all)
    (hc : Closed b.all w) : Evals dbg t I b.leaves (b.process dbg t) w (ProcPost b w) := by
  cases b with
  | leaf l =>
    simp only [Block.process, Block.leaves]
    refine (evals_leaf (I := I) l w).mono (fun l h => h) ?_
    rintro n ls w' _ _ ⟨h1, h2, h3, h4, h5⟩
    refine ⟨h1, ?_, ?_, ?_, ?_⟩
    · intro h0 l' hl'
      simp only [Block.leaves, List.mem_singleton] at hl'
      subst hl'; exact h2 h0
    · intro x hx
      rw [ids_leaf, List.mem_singleton] at hx
      exact h3 x hx
    · intro c hc hd x hx
      simp only [Block.all, List.mem_singleton] at hc
      subst hc
      rw [ids_leaf, List.mem_singleton] at hx
      subst hx; exact hd
    · intro c hc
      simp only [Block.all, List.mem_singleton] at hc
      subst hc
      simp [Block.id, Block.leaves]
  | sub i links kids =>
    simp only [Block.process, Block.leaves]
    have hi : ¬ I i := by simpa [Block.isLeaf, Block.id] using hs _ (self_mem_all (Block.sub i links kids))
    rw [ids_sub, List.nodup_cons] at hn
    have hsk : Sorted I (allL kids) := fun c hc => hs c (by simp [Block.all, hc])
    unfold Evals
    simp only [bind_apply, getDone]
    by_cases hd : w.done i = true
    · have hall := hc _ (self_mem_all (Block.sub i links kids)) hd
      simp only [hd, if_true, pure_apply]
      refine ⟨[], by simp, .nil w, rfl, ?_, fun _ _ => rfl, hc, ?_⟩
      · intro _ l hl hen
        have := hall l.id (leaf_id_mem_ids hl)
        rw [hen.1] at this; cases this
      · intro c hcm
        have hcd : ∀ x ∈ c.ids, w.done x = true := fun x hx => hall x (ids_of_mem_all hcm x hx)
        simp only [hcd c.id (id_mem_ids c), true_iff]
        intro l hl; exact hcd l.id (leaf_id_mem_ids hl)
    · simp only [Bool.not_eq_true] at hd
      simp only [hd]
      rw [if_neg (by simp)]
      simp only [bind_apply, setDone]
      have hck : Closed (allL kids) { w with done := upd w.done i true } := by
        refine closed_congr (w := w) ?_ (fun c hcm => hc c (by simp [Block.all, hcm]))
        intro c hcm x hx
        have : x ≠ i := fun e => hn.1 (e ▸ ids_of_mem_allL hcm x hx)
        simp [upd, this]
      have ih := evals_processL i kids { w with done := upd w.done i true } hi hn.1 hn.2 hsk hck
      unfold Evals at ih
      cases hp : processL dbg t i kids { w with done := upd w.done i true } with
      | error e w' =>
        rw [hp] at ih
        obtain ⟨ls, wm, g1, g2, g3⟩ := ih
        exact ⟨ls, wm, g1, .flag hi g2, g3⟩
      | ok n w' =>
        rw [hp] at ih
        obtain ⟨ls, g1, g2, g3⟩ := ih
        refine ⟨ls, g1, .flag hi g2, g3.count, g3.stuck, ?_, ?_, ?_⟩
        · intro x hx
          rw [ids_sub, List.mem_cons, not_or] at hx
          rw [g3.frame x hx.1 hx.2]
          simp [upd, hx.1]
        · intro c hcm
          simp only [Block.all, List.mem_cons] at hcm
          rcases hcm with rfl | hcm
          · intro hdi x hx
            rw [ids_sub, List.mem_cons] at hx
            rcases hx with rfl | hx
            · exact hdi
            · obtain ⟨b, hb, hxb⟩ := idsL_exists hx
              exact g3.closed b (mem_allL hb b (self_mem_all b)) ((g3.flag.1 hdi).2 b hb) x hxb
          · exact g3.closed c hcm
        · intro c hcm
          simp only [Block.all, List.mem_cons] at hcm
          rcases hcm with rfl | hcm
          · show w'.done i = true ↔ ∀ l ∈ leavesL kids, w'.done l.id = true
            rw [g3.flag]
            constructor
            · rintro ⟨_, h⟩ l hl
              obtain ⟨b, hb, hlb⟩ := allL_eq_nil_leaf hl
              exact (g3.exact b (mem_allL hb b (self_mem_all b))).1 (h b hb) l hlb
            · intro h
              refine ⟨by simp [upd], fun b hb => ?_⟩
              exact (g3.exact b (mem_allL hb b (self_mem_all b))).2 (fun l hl => h l (leavesL_of_mem hb hl))
          · exact g3.exact c hcm
theorem evals_processL (i : BlkId) (bs : List (Block K)) (w : World K) (hi : ¬ I i) (hni : i ∉ idsL bs)
    (hn : (idsL bs).Nodup) (hs : Sorted I (allL bs)) (hc : Closed (allL bs) w) :
    Evals dbg t I (leavesL bs) (processL dbg t i bs) w (ProcPostL i bs w) := by
  cases bs with
  | nil =>
    simp only [processL]
    refine Evals.pure ⟨rfl, ?_, fun _ _ _ => rfl, by simp, ?_, ?_⟩
    · intro _ l hl; simp [leavesL] at hl
    · intro c hc; simp [allL] at hc
    · intro c hc; simp [allL] at hc
  | cons b bs =>
    rw [idsL_cons, List.mem_append, not_or] at hni
    rw [idsL_cons] at hn
    have hnd := List.nodup_append.1 hn
    have hsb : Sorted I b.all := fun c hc => hs c (by simp [allL, hc])
    have hsbs : Sorted I (allL bs) := fun c hc => hs c (by simp [allL, hc])
    have hleaf : ∀ l ∈ b.leaves, I l.id := by
      intro l hl
      have := hsb _ ((leaf_mem_all b l).1 hl)
      simpa [Block.isLeaf, Block.id] using this
    have ih1 := evals_process b w hnd.1 hsb (fun c hcm => hc c (by simp [allL, hcm]))
    simp only [processL]
    refine Evals.bind (Q := ProcPost b w) (ih1.mono (fun l hl => by simp [leavesL, hl]) (fun _ _ _ _ _ h => h)) ?_
    intro n ls w1 hls hst hp
    -- the flag of the submodel
    have hcong : ∀ (w2 : World K), (∀ x, x ≠ i → w2.done x = w1.done x) →
        ∀ x ∈ b.ids, w2.done x = w1.done x := by
      intro w2 h x hx
      exact h x (fun e => hni.1 (e ▸ hx))
    have hcbs : ∀ (w2 : World K), (∀ x, x ≠ i → w2.done x = w1.done x) → Closed (allL bs) w2 := by
      intro w2 h
      refine closed_congr (w := w) ?_ (fun c hcm => hc c (by simp [allL, hcm]))
      intro c hcm x hx
      have hxbs := ids_of_mem_allL hcm x hx
      rw [h x (fun e => hni.2 (e ▸ hxbs))]
      exact hp.frame x (fun hxb => hnd.2.2 x hxb x hxbs rfl)
    -- the rest of the loop, from a world differing from `w1` in the flag only
    have key : ∀ (w2 : World K), (∀ x, x ≠ i → w2.done x = w1.done x) →
        (w2.done i = true ↔ w1.done i = true ∧ w1.done b.id = true) → Steps dbg t I w1 [] w2 →
        Evals dbg t I (leavesL (b :: bs)) (do let m ← processL dbg t i bs; Pure.pure (n + m)) w2
          (fun b' ls' w'' => ProcPostL i (b :: bs) w b' (ls ++ ls') w'') := by
      intro w2 h2 hflag hst2
      have ih2 := evals_processL i bs w2 hi hni.2 hnd.2.1 hsbs (hcbs w2 h2)
      refine Evals.bind (Q := ProcPostL i bs w2)
        (ih2.mono (fun l hl => by simp [leavesL, hl]) (fun _ _ _ _ _ h => h)) ?_
      intro m ls2 w3 hls2 hst3 hq
      have hb3 : ∀ x ∈ b.ids, w3.done x = w1.done x := by
        intro x hx
        have hxi : x ≠ i := fun e => hni.1 (e ▸ hx)
        rw [hq.frame x hxi (fun hxbs => hnd.2.2 x hx x hxbs rfl), h2 x hxi]
      refine Evals.pure ⟨?_, ?_, ?_, ?_, ?_, ?_⟩
      · rw [hp.count, hq.count]; simp
      · intro h0 l hl
        have hm : m = 0 := by omega
        have hn0 : n = 0 := by omega
        simp only [leavesL, List.mem_append] at hl
        rcases hl with hl | hl
        · have h1 := hp.stuck hn0 l hl
          have : ls2 = [] := List.length_eq_zero_iff.1 (by rw [← hq.count]; exact hm)
          subst this
          have hst13 := hst2.append hst3
          simp only [List.append_nil] at hst13
          rw [hst13.nil_enabled (hleaf l hl)]; exact h1
        · exact hq.stuck hm l hl
      · intro x hx hxb
        rw [idsL_cons, List.mem_append, not_or] at hxb
        rw [hq.frame x hx hxb.2, h2 x hx, hp.frame x hxb.1]
      · rw [hq.flag, hflag, hp.frame i hni.1]
        have e : w3.done b.id = w1.done b.id := hb3 b.id (id_mem_ids b)
        simp only [List.forall_mem_cons, e]
        constructor
        · rintro ⟨⟨a, b⟩, c⟩; exact ⟨a, b, c⟩
        · rintro ⟨a, b, c⟩; exact ⟨⟨a, b⟩, c⟩
      · intro c hcm
        simp only [allL, List.mem_append] at hcm
        rcases hcm with hcm | hcm
        · exact closed_congr (cs := b.all) (w := w1)
            (fun c' hc' x hx => hb3 x (ids_of_mem_all hc' x hx)) hp.closed c hcm
        · exact hq.closed c hcm
      · intro c hcm
        simp only [allL, List.mem_append] at hcm
        rcases hcm with hcm | hcm
        · exact exact_congr (cs := b.all) (w := w1)
            (fun c' hc' x hx => hb3 x (ids_of_mem_all hc' x hx)) hp.exact c hcm
        · exact hq.exact c hcm
    by_cases hd : w1.done b.id = true
    · have := key w1 (fun _ _ => rfl) (by simp [hd]) (.nil w1)
      unfold Evals at this ⊢
      simpa only [bind_apply, getDone, hd, Bool.not_true, Bool.false_eq_true, if_false, pure_apply] using this
    · simp only [Bool.not_eq_true] at hd
      have := key { w1 with done := upd w1.done i false } (fun x hx => by simp [upd, hx])
        (by simp [upd, hd]) (.setFlag hi w1 false)
      unfold Evals at this ⊢
      simp only [bind_apply, getDone, hd, setDone, Bool.not_false, if_true] at this ⊢
      split at this
      · rename_i a w' heq
        obtain ⟨ls', h1, h2, h3⟩ := this
        rw [heq]
        exact ⟨ls', h1, .flag hi h2, h3⟩
      · rename_i a w' heq
        obtain ⟨ls', wm, h1, h2, h3⟩ := this
        rw [heq]
        exact ⟨ls', wm, h1, .flag hi h2, h3⟩
end

end Pooya
