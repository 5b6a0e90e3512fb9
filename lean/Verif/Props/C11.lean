import Verif.Model.Topology

/-! # C11 — parent and child lists stay consistent -/

namespace Pooya.C11

/-- Specification: a block is in a child list exactly if that submodel is its parent, and once. -/
structure Consistent (h : Heap) : Prop where
  iff_parent : ∀ p b, b ∈ h.kids p ↔ h.parent b = some p
  once : ∀ p, (h.kids p).Nodup

/-- Helper invariant: objects that do not exist yet. -/
def Fresh (h : Heap) : Prop := ∀ b, h.next ≤ b → h.parent b = none ∧ h.kids b = []

theorem link_consistent {h : Heap} {p b : BlkId} (hp : ∀ q c, c ∈ h.kids q → h.parent c = some q)
    (ho : ∀ q, (h.kids q).Nodup)
    (hq : ∀ q c, c ≠ b → h.parent c = some q → c ∈ h.kids q) (hb : h.parent b = some p) :
    Consistent (linkBlock h p b).2 ∧ (linkBlock h p b).2.parent = h.parent ∧
    (linkBlock h p b).2.next = h.next := by
  by_cases hm : b ∈ h.kids p
  · have e : (linkBlock h p b).2 = h := by simp [linkBlock, hb, hm]
    rw [e]
    refine ⟨⟨fun q c => ⟨hp q c, fun hc => ?_⟩, ho⟩, rfl, rfl⟩
    by_cases hcb : c = b
    · subst hcb; rw [hb] at hc; cases hc; exact hm
    · exact hq q c hcb hc
  · have e : (linkBlock h p b).2 =
        { h with node := upd h.node p { h.node p with kids := h.kids p ++ [b] } } := by
      simp [linkBlock, hb, hm]
    rw [e]
    have hpar : ∀ c, Heap.parent { h with node := upd h.node p { h.node p with kids := h.kids p ++ [b] } } c
        = h.parent c := by
      intro c; by_cases hc : c = p <;> simp [Heap.parent, upd, hc]
    have hkid : ∀ q, Heap.kids { h with node := upd h.node p { h.node p with kids := h.kids p ++ [b] } } q
        = if q = p then h.kids p ++ [b] else h.kids q := by
      intro q; by_cases hc : q = p <;> simp [Heap.kids, upd, hc]
    refine ⟨⟨fun q c => ?_, fun q => ?_⟩, funext hpar, rfl⟩
    · rw [hpar, hkid]
      by_cases hqp : q = p
      · subst hqp
        simp only [if_true, List.mem_append, List.mem_singleton]
        constructor
        · rintro (hc | rfl)
          · exact hp _ _ hc
          · exact hb
        · intro hc
          by_cases hcb : c = b
          · exact Or.inr hcb
          · exact Or.inl (hq _ _ hcb hc)
      · rw [if_neg hqp]
        refine ⟨hp q c, fun hc => ?_⟩
        by_cases hcb : c = b
        · subst hcb; rw [hb] at hc; cases hc; exact (hqp rfl).elim
        · exact hq q c hcb hc
    · rw [hkid]
      by_cases hqp : q = p
      · rw [if_pos hqp]
        rw [List.nodup_append]
        refine ⟨ho p, by simp, ?_⟩
        intro a ha b' hb' e'
        simp at hb'; subst hb' e'; exact hm ha
      · rw [if_neg hqp]; exact ho q

theorem linkBlock_next (h : Heap) (p b : BlkId) : (linkBlock h p b).2.next = h.next := by
  simp only [linkBlock]; split
  · rfl
  · simp only; split <;> rfl

theorem linkBlock_kids_other (h : Heap) (p b c : BlkId) (hc : c ≠ p) :
    (linkBlock h p b).2.kids c = h.kids c := by
  simp only [linkBlock]; split
  · rfl
  · simp only; split
    · rfl
    · simp [Heap.kids, upd, hc]

theorem linkBlock_parent (h : Heap) (p b c : BlkId) :
    (linkBlock h p b).2.parent c = h.parent c := by
  simp only [linkBlock]; split
  · rfl
  · simp only; split
    · rfl
    · by_cases hc : c = p <;> simp [Heap.parent, upd, hc]

/-- Effect of `set_parent` on the fields. -/
theorem setParent_step {h : Heap} (hC : Consistent h) (hF : Fresh h) {b p : BlkId} (hb : b < h.next)
    (hp : p < h.next) :
    Consistent (setParent h b p).2 ∧ Fresh (setParent h b p).2 ∧ (setParent h b p).2.next = h.next ∧
    ∀ c, (setParent h b p).2.parent c =
      if c = b ∧ h.parent b = none then some p else h.parent c := by
  have main : (h.parent b = none ∨ h.parent b = some p) →
      let h1 : Heap := { h with node := upd h.node b { h.node b with parent := some p } }
      Consistent (linkBlock h1 p b).2 ∧ Fresh (linkBlock h1 p b).2 ∧ (linkBlock h1 p b).2.next = h.next ∧
      ∀ c, (linkBlock h1 p b).2.parent c = if c = b ∧ h.parent b = none then some p else h.parent c := by
    intro hbp h1
    have hk : ∀ q, h1.kids q = h.kids q := by
      intro q; by_cases hq : q = b <;> simp [h1, Heap.kids, upd, hq]
    have hpar : ∀ c, h1.parent c = if c = b then some p else h.parent c := by
      intro c; by_cases hc : c = b <;> simp [h1, Heap.parent, upd, hc]
    have := @link_consistent h1 p b
      (by
        intro q c hc
        rw [hk] at hc
        have := (hC.iff_parent q c).1 hc
        rw [hpar]
        by_cases hcb : c = b
        · subst hcb
          rcases hbp with e | e
          · rw [e] at this; cases this
          · rw [e] at this; cases this; simp
        · rw [if_neg hcb]; exact this)
      (by intro q; rw [hk]; exact hC.once q)
      (by
        intro q c hcb hc
        rw [hk]; rw [hpar, if_neg hcb] at hc
        exact (hC.iff_parent q c).2 hc)
      (by rw [hpar]; simp)
    obtain ⟨a, b', c⟩ := this
    refine ⟨a, ?_, c, ?_⟩
    · intro d hd
      rw [c] at hd
      have hd' : h.next ≤ d := hd
      have hdb : d ≠ b := Nat.ne_of_gt (Nat.lt_of_lt_of_le hb hd')
      have hdp : d ≠ p := Nat.ne_of_gt (Nat.lt_of_lt_of_le hp hd')
      have := hF d hd'
      constructor
      · rw [b', hpar, if_neg hdb]; exact this.1
      · rw [linkBlock_kids_other _ _ _ _ hdp, hk]; exact this.2
    · intro d
      rw [b', hpar]
      by_cases hdb : d = b
      · subst hdb
        rcases hbp with e | e <;> simp [e]
      · simp [hdb]
  simp only [setParent]
  split
  · rename_i q hq
    split
    · refine ⟨hC, hF, rfl, ?_⟩
      intro c; simp [hq]
    · rename_i hqp
      have : q = p := by simpa using hqp
      subst this
      exact main (Or.inr hq)
  · rename_i hq
    exact main (Or.inl hq)

/-- Effect of the constructor on the fields. -/
theorem newBlock_step {h : Heap} (hC : Consistent h) (hF : Fresh h) (k : Bool) (par : Option BlkId)
    (n : Str) (hp : ∀ p, par = some p → p < h.next) :
    Consistent (newBlock h k par n).2 ∧ Fresh (newBlock h k par n).2 ∧
    (newBlock h k par n).2.next = h.next + 1 ∧ (newBlock h k par n).1 = h.next ∧
    ∀ c, (newBlock h k par n).2.parent c = if c = h.next then par else h.parent c := by
  let h1 : Heap := ⟨upd h.node h.next ⟨emend n, k, par, []⟩, h.next + 1⟩
  have hk : ∀ q, h1.kids q = h.kids q := by
    intro q; by_cases hq : q = h.next
    · subst hq; simp [h1, Heap.kids, upd]; exact (hF h.next (Nat.le_refl _)).2
    · simp [h1, Heap.kids, upd, hq]
  have hpar : ∀ c, h1.parent c = if c = h.next then par else h.parent c := by
    intro c; by_cases hc : c = h.next <;> simp [h1, Heap.parent, upd, hc]
  cases par with
  | none =>
    have e : newBlock h k none n = (h.next, h1) := rfl
    rw [e]
    refine ⟨⟨?_, ?_⟩, ?_, rfl, rfl, hpar⟩
    · intro q c
      show c ∈ h1.kids q ↔ h1.parent c = some q
      rw [hk, hpar, hC.iff_parent]
      by_cases hc : c = h.next
      · subst hc; simp [(hF h.next (Nat.le_refl _)).1]
      · simp [hc]
    · intro q
      show (h1.kids q).Nodup
      rw [hk]; exact hC.once q
    · intro d hd
      have hd' : h.next + 1 ≤ d := hd
      show h1.parent d = none ∧ h1.kids d = []
      rw [hk, hpar, if_neg (Nat.ne_of_gt hd')]
      exact hF d (Nat.le_of_lt hd')
  | some p =>
    have e : newBlock h k (some p) n = (h.next, (linkBlock h1 p h.next).2) := rfl
    have hpn := hp p rfl
    rw [e]
    obtain ⟨a, b, c⟩ := @link_consistent h1 p h.next
      (by
        intro q c hc
        rw [hk] at hc
        have := (hC.iff_parent q c).1 hc
        rw [hpar]
        by_cases hcn : c = h.next
        · subst hcn; rw [(hF h.next (Nat.le_refl _)).1] at this; cases this
        · rw [if_neg hcn]; exact this)
      (by intro q; rw [hk]; exact hC.once q)
      (by
        intro q c hcn hc
        rw [hk]; rw [hpar, if_neg hcn] at hc
        exact (hC.iff_parent q c).2 hc)
      (by rw [hpar]; simp)
    refine ⟨a, ?_, c, rfl, ?_⟩
    · intro d hd
      rw [c] at hd
      have hd' : h.next + 1 ≤ d := hd
      show (linkBlock h1 p h.next).2.parent d = none ∧ (linkBlock h1 p h.next).2.kids d = []
      rw [linkBlock_kids_other _ _ _ _ (Nat.ne_of_gt (Nat.lt_of_lt_of_le hpn (Nat.le_of_lt hd'))), hk, b, hpar, if_neg (Nat.ne_of_gt hd')]
      exact hF d (Nat.le_of_lt hd')
    · intro d
      show (linkBlock h1 p h.next).2.parent d = _
      rw [b]; exact hpar d

/-- Effect of `link_block` on a consistent heap: none. -/
theorem linkBlock_step {h : Heap} (hC : Consistent h) (p b : BlkId) : (linkBlock h p b).2 = h := by
  simp only [linkBlock]
  split
  · rfl
  · rename_i hb
    have : h.parent b = some p := by simpa using hb
    simp [(hC.iff_parent p b).2 this]

theorem rename_kids (h : Heap) (b : BlkId) (n : Str) :
    (renameBlock h b n).kids = h.kids ∧ (renameBlock h b n).parent = h.parent := by
  constructor <;> funext c <;> by_cases hc : c = b <;> simp [renameBlock, Heap.kids, Heap.parent, upd, hc]

theorem step_inv {h : Heap} (hC : Consistent h) (hF : Fresh h) (op : TOp) (hv : op.valid h) :
    Consistent (op.step h) ∧ Fresh (op.step h) := by
  cases op with
  | new k par n =>
    have := newBlock_step hC hF k par n (by
      intro p hp; subst hp; exact hv.1)
    exact ⟨this.1, this.2.1⟩
  | setParent b p =>
    have := setParent_step hC hF hv.1 hv.2.1
    exact ⟨this.1, this.2.1⟩
  | linkBlock p b =>
    have : TOp.step h (.linkBlock p b) = h := linkBlock_step hC p b
    rw [this]; exact ⟨hC, hF⟩
  | addBlock p b =>
    have := setParent_step hC hF hv.1 hv.2.1
    exact ⟨this.1, this.2.1⟩
  | rename b n =>
    have := rename_kids h b n
    refine ⟨⟨?_, ?_⟩, ?_⟩
    · intro p c; show c ∈ (renameBlock h b n).kids p ↔ (renameBlock h b n).parent c = _
      rw [this.1, this.2]; exact hC.iff_parent p c
    · intro p; show ((renameBlock h b n).kids p).Nodup
      rw [this.1]; exact hC.once p
    · intro c hc; show (renameBlock h b n).parent c = none ∧ (renameBlock h b n).kids c = []
      rw [this.1, this.2]; exact hF c hc

theorem reachable_inv {h : Heap} (hr : h.Reachable) : Consistent h ∧ Fresh h := by
  induction hr with
  | empty =>
    refine ⟨⟨?_, ?_⟩, ?_⟩
    · intro p b; simp [Heap.empty, Heap.kids, Heap.parent]
    · intro p; simp [Heap.empty, Heap.kids]
    · intro b _; simp [Heap.empty, Heap.kids, Heap.parent]
  | step op _ hv ih => exact step_inv ih.1 ih.2 op hv

/-- C11: whatever a program does, a block is in a submodel's child list exactly if that submodel is its
parent, and it is there once. -/
theorem C11_consistent {h : Heap} (hr : h.Reachable) : Consistent h := (reachable_inv hr).1

/-- C11: a block that has a parent keeps it, whatever is called later. -/
theorem C11_parent_kept {h : Heap} (hr : h.Reachable) (op : TOp) (hv : op.valid h) {b p : BlkId}
    (hb : h.parent b = some p) : (op.step h).parent b = some p := by
  obtain ⟨hC, hF⟩ := reachable_inv hr
  have hbn : b < h.next := by
    rcases Nat.lt_or_ge b h.next with h1 | h1
    · exact h1
    · rw [(hF b h1).1] at hb; cases hb
  cases op with
  | new k par n =>
    have := (newBlock_step hC hF k par n (by intro p hp; subst hp; exact hv.1)).2.2.2.2 b
    show (newBlock h k par n).2.parent b = _
    rw [this, if_neg (Nat.ne_of_lt hbn)]; exact hb
  | setParent c q =>
    have := (setParent_step hC hF hv.1 hv.2.1).2.2.2 b
    show (setParent h c q).2.parent b = _
    rw [this, if_neg]
    · exact hb
    · rintro ⟨rfl, h2⟩; rw [h2] at hb; cases hb
  | linkBlock q c =>
    show (linkBlock h q c).2.parent b = _
    rw [linkBlock_parent]; exact hb
  | addBlock q c =>
    have := (setParent_step hC hF hv.1 hv.2.1).2.2.2 b
    show (setParent h c q).2.parent b = _
    rw [this, if_neg]
    · exact hb
    · rintro ⟨rfl, h2⟩; rw [h2] at hb; cases hb
  | rename c n =>
    show (renameBlock h c n).parent b = _
    rw [(rename_kids h c n).2]; exact hb

/-- C11: `set_parent(p)` reports success exactly if `p` is the parent afterwards, and then the block is
among the children of `p`. -/
theorem C11_set_parent {h : Heap} (hr : h.Reachable) {b p : BlkId} (hb : b < h.next) (hp : p < h.next) :
    ((setParent h b p).1 = true ↔ (setParent h b p).2.parent b = some p) ∧
    ((setParent h b p).1 = true ↔ b ∈ (setParent h b p).2.kids p) ∧
    ((setParent h b p).1 = true ↔ h.parent b = none ∨ h.parent b = some p) := by
  obtain ⟨hC, hF⟩ := reachable_inv hr
  obtain ⟨s1, _, _, s4⟩ := setParent_step hC hF hb hp
  have e1 : (setParent h b p).1 = true ↔ h.parent b = none ∨ h.parent b = some p := by
    simp only [setParent]
    split
    · rename_i q hq
      split
      · rename_i hqp; simp [hq, hqp]
      · rename_i hqp
        have : q = p := by simpa using hqp
        simp [hq, this]
    · rename_i hq; simp [hq]
  have e2 : (setParent h b p).2.parent b = some p ↔ h.parent b = none ∨ h.parent b = some p := by
    rw [s4 b]
    by_cases h0 : h.parent b = none <;> simp [h0]
  exact ⟨e1.trans e2.symm, (e1.trans e2.symm).trans (s1.iff_parent p b).symm, e1⟩

/-- The constructor links the new block to the given parent. -/
theorem C11_new {h : Heap} (hr : h.Reachable) (k : Bool) (p : BlkId) (n : Str) (hp : p < h.next) :
    let r := newBlock h k (some p) n
    r.2.parent r.1 = some p ∧ r.1 ∈ r.2.kids p ∧ ∀ q, h.parent r.1 ≠ some q := by
  obtain ⟨hC, hF⟩ := reachable_inv hr
  obtain ⟨s1, _, _, s4, s5⟩ := newBlock_step hC hF k (some p) n (by intro q hq; cases hq; exact hp)
  intro r
  have : r.2.parent r.1 = some p := by
    show (newBlock h k (some p) n).2.parent (newBlock h k (some p) n).1 = some p
    rw [s5, s4]; simp
  refine ⟨this, (s1.iff_parent p _).2 this, ?_⟩
  intro q hq
  have h1 : r.1 = h.next := s4
  rw [h1, (hF h.next (Nat.le_refl _)).1] at hq
  cases hq

/-- A program that builds two submodels and tries to move a leaf from one to the other. -/
def sample : Heap :=
  TOp.step (TOp.step (TOp.step (TOp.step Heap.empty (.new true none (str "a"))) (.new true none (str "b")))
    (.new false (some 0) (str "c"))) (.setParent 2 1)

theorem sample_reachable : sample.Reachable := by
  refine .step _ (.step _ (.step _ (.step _ .empty ?_) ?_) ?_) ?_
  · trivial
  · trivial
  · exact ⟨by decide +kernel, by decide +kernel⟩
  · exact ⟨by decide +kernel, by decide +kernel, by decide +kernel⟩

/-- The leaf stays with its first parent. -/
example : sample.parent 2 = some 0 ∧ sample.kids 0 = [2] ∧ sample.kids 1 = [] := by decide +kernel

example : Consistent sample := C11_consistent sample_reachable

end Pooya.C11
