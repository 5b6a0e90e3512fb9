import Verif.Props.C11
import Mathlib.Data.List.Perm.Subperm

/-! # C12 — the block hierarchy is a tree -/

namespace Pooya.C12
open C11

/-- `Anc h a b`: `a` is a proper ancestor of `b`. -/
inductive Anc (h : Heap) : BlkId → BlkId → Prop
  | parent {a b : BlkId} : h.parent b = some a → Anc h a b
  | up {a b c : BlkId} : h.parent b = some c → Anc h a c → Anc h a b

/-- No block is its own ancestor. -/
def Acyclic (h : Heap) : Prop := ∀ b, ¬ Anc h b b

/-- The full claim. -/
def C12_full : Prop := ∀ h : Heap, h.Reachable → Acyclic h

/-- A program that makes a submodel its own parent: `Submodel s(nullptr, "s"); s.set_parent(s);`. -/
def selfParent : Heap := TOp.step (TOp.step Heap.empty (.new true none (str "s"))) (.setParent 0 0)

theorem selfParent_reachable : selfParent.Reachable := by
  refine .step _ (.step _ .empty ?_) ?_
  · trivial
  · exact ⟨by decide +kernel, by decide +kernel, by decide +kernel⟩

/-- C12 is false: `set_parent` does not look for cycles. -/
theorem C12_refuted : ¬ C12_full := by
  intro h
  exact h selfParent selfParent_reachable 0 (.parent (by decide +kernel))

/-- In that heap `full_name()` never returns. -/
theorem C12_refuted_full_name (n : Nat) : fullName selfParent n 0 = none := by
  induction n with
  | zero => rfl
  | succ n ih =>
    have : selfParent.parent 0 = some 0 := by decide +kernel
    simp only [fullName, this]
    rw [ih]; rfl

/-! ## What does hold -/

/-- The guard a caller has to observe: an unowned block is not put below itself. -/
def Guard (h : Heap) : TOp → Prop
  | .setParent b p | .addBlock p b => h.parent b = none → ¬ (b = p ∨ Anc h b p)
  | _ => True

theorem Anc.trans {h : Heap} {a b c : BlkId} (h1 : Anc h a b) (h2 : Anc h b c) : Anc h a c := by
  induction h2 with
  | parent hp => exact .up hp h1
  | up hp _ ih => exact .up hp ih

theorem Anc.mono {h h' : Heap} (hp : ∀ b p, h.parent b = some p → h'.parent b = some p) {a b : BlkId}
    (h1 : Anc h a b) : Anc h' a b := by
  induction h1 with
  | parent hq => exact .parent (hp _ _ hq)
  | up hq _ ih => exact .up (hp _ _ hq) ih

theorem parent_lt {h : Heap} (hC : Consistent h) (hF : Fresh h) {b p : BlkId} (hb : h.parent b = some p) :
    p < h.next := by
  rcases Nat.lt_or_ge p h.next with h1 | h1
  · exact h1
  · have := (hC.iff_parent p b).2 hb
    rw [(hF p h1).2] at this; cases this

theorem setParent_acyclic {h : Heap} (hC : Consistent h) (hF : Fresh h) {b p : BlkId} (hb : b < h.next)
    (hp : p < h.next) (hA : Acyclic h) :
    Acyclic (setParent h b p).2 ↔ (h.parent b = none → ¬ (b = p ∨ Anc h b p)) := by
  obtain ⟨_, _, _, s4⟩ := setParent_step hC hF hb hp
  constructor
  · intro hA' hb0 hbad
    have hedge : (setParent h b p).2.parent b = some p := by rw [s4]; simp [hb0]
    rcases hbad with rfl | hanc
    · exact hA' b (.parent hedge)
    · refine hA' b (.up hedge (hanc.mono ?_))
      intro c q hc
      rw [s4, if_neg]
      · exact hc
      · rintro ⟨rfl, e⟩; rw [e] at hc; cases hc
  · intro hg c hc
    by_cases hb0 : h.parent b = none
    · have hg := hg hb0
      have key : ∀ a c, Anc (setParent h b p).2 a c →
          Anc h a c ∨ ((b = c ∨ Anc h b c) ∧ (a = p ∨ Anc h a p)) := by
        intro a c hac
        induction hac with
        | @parent c hq =>
          rw [s4] at hq
          by_cases e : c = b ∧ h.parent b = none
          · rw [if_pos e] at hq; cases hq
            exact Or.inr ⟨Or.inl e.1.symm, Or.inl rfl⟩
          · rw [if_neg e] at hq; exact Or.inl (.parent hq)
        | @up c d hq _ ih =>
          rw [s4] at hq
          by_cases e : c = b ∧ h.parent b = none
          · rw [if_pos e] at hq; cases hq
            rcases ih with ih | ⟨ih, _⟩
            · exact Or.inr ⟨Or.inl e.1.symm, Or.inr ih⟩
            · exact (hg ih).elim
          · rw [if_neg e] at hq
            rcases ih with ih | ⟨ih, ih2⟩
            · exact Or.inl (.up hq ih)
            · refine Or.inr ⟨Or.inr ?_, ih2⟩
              rcases ih with rfl | ih
              · exact .parent hq
              · exact .up hq ih
      rcases key c c hc with h1 | ⟨h1, h2⟩
      · exact hA c h1
      · apply hg
        rcases h1 with rfl | h1
        · exact h2
        · rcases h2 with rfl | h2
          · exact Or.inr h1
          · exact Or.inr (h1.trans h2)
    · refine hA c (hc.mono ?_)
      intro d q hd
      rw [s4] at hd
      simpa [hb0] using hd

theorem newBlock_acyclic {h : Heap} (hC : Consistent h) (hF : Fresh h) (k : Bool) (par : Option BlkId)
    (n : Str) (hp : ∀ p, par = some p → p < h.next) (hA : Acyclic h) :
    Acyclic (newBlock h k par n).2 := by
  obtain ⟨_, _, _, _, s5⟩ := newBlock_step hC hF k par n hp
  have key : ∀ a c, Anc (newBlock h k par n).2 a c → a < h.next ∧ (c ≠ h.next → Anc h a c) := by
    intro a c hac
    induction hac with
    | @parent c hq =>
      rw [s5] at hq
      by_cases e : c = h.next
      · rw [if_pos e] at hq
        exact ⟨hp _ hq, fun h1 => (h1 e).elim⟩
      · rw [if_neg e] at hq
        exact ⟨parent_lt hC hF hq, fun _ => .parent hq⟩
    | @up c d hq _ ih =>
      refine ⟨ih.1, fun e => ?_⟩
      rw [s5, if_neg e] at hq
      exact .up hq (ih.2 (Nat.ne_of_lt (parent_lt hC hF hq)))
  intro b hb
  obtain ⟨h1, h2⟩ := key b b hb
  exact hA b (h2 (Nat.ne_of_lt h1))

/-- C12 (partial): a construction call keeps the hierarchy a tree exactly if it does not put an
unowned submodel below itself; nothing else can create a cycle. -/
theorem C12_step_partial {h : Heap} (hr : h.Reachable) (hA : Acyclic h) (op : TOp) (hv : op.valid h) :
    Acyclic (op.step h) ↔ Guard h op := by
  obtain ⟨hC, hF⟩ := reachable_inv hr
  cases op with
  | new k par n =>
    simp only [Guard, iff_true]
    exact newBlock_acyclic hC hF k par n (by intro p hp; subst hp; exact hv.1) hA
  | setParent b p => exact setParent_acyclic hC hF hv.1 hv.2.1 hA
  | linkBlock p b =>
    have e : TOp.step h (.linkBlock p b) = h := linkBlock_step hC p b
    rw [e]; simpa [Guard] using hA
  | addBlock p b => exact setParent_acyclic hC hF hv.1 hv.2.1 hA
  | rename b n =>
    simp only [Guard, iff_true]
    intro c hc
    refine hA c (hc.mono ?_)
    intro d q hd
    have : (renameBlock h b n).parent d = some q := hd
    rwa [(rename_kids h b n).2] at this

/-- Heaps reached by programs that observe the guard. -/
inductive Guarded : Heap → Prop
  | empty : Guarded Heap.empty
  | step {h : Heap} (op : TOp) : Guarded h → op.valid h → Guard h op → Guarded (op.step h)

theorem Guarded.reachable {h : Heap} (hg : Guarded h) : h.Reachable := by
  induction hg with
  | empty => exact .empty
  | step op _ hv _ ih => exact .step op ih hv

/-- C12 (partial): programs that never put a submodel below itself only build trees. -/
theorem C12_partial {h : Heap} (hg : Guarded h) : Acyclic h := by
  induction hg with
  | empty =>
    intro b hb
    cases hb with
    | parent hp => simp [Heap.empty, Heap.parent] at hp
    | up hp _ => simp [Heap.empty, Heap.parent] at hp
  | step op hg hv hgd ih => exact (C12_step_partial hg.reachable ih op hv).2 hgd

/-! ## Termination of the recursions over the hierarchy -/

theorem length_le {h : Heap} {l : List BlkId} (hn : l.Nodup) (hl : ∀ x ∈ l, x < h.next) :
    l.length ≤ h.next := by
  have : l ⊆ List.range h.next := by
    intro x hx; exact List.mem_range.2 (hl x hx)
  have := (hn.subperm this).length_le
  simpa using this

theorem fullName_none {h : Heap} (hC : Consistent h) (hF : Fresh h) (n : Nat) (b : BlkId) (hb : b < h.next)
    (hn : fullName h n b = none) :
    ∃ l : List BlkId, l.length = n ∧ l.Pairwise (fun x y => Anc h y x) ∧
      (∀ x ∈ l, x = b ∨ Anc h x b) ∧ ∀ x ∈ l, x < h.next := by
  induction n generalizing b with
  | zero => exact ⟨[], rfl, .nil, by simp, by simp⟩
  | succ n ih =>
    simp only [fullName] at hn
    split at hn
    · cases hn
    · rename_i p hp
      simp at hn
      obtain ⟨l, h1, h2, h3, h4⟩ := ih p (parent_lt hC hF hp) hn
      have hanc : ∀ x ∈ l, Anc h x b := by
        intro x hx
        rcases h3 x hx with rfl | h5
        · exact .parent hp
        · exact .up hp h5
      refine ⟨b :: l, by simp [h1], List.pairwise_cons.2 ⟨hanc, h2⟩, ?_, ?_⟩
      · intro x hx
        rcases List.mem_cons.1 hx with rfl | hx
        · exact Or.inl rfl
        · exact Or.inr (hanc x hx)
      · intro x hx
        rcases List.mem_cons.1 hx with rfl | hx
        · exact hb
        · exact h4 x hx

theorem nodup_of_pairwise {h : Heap} (hA : Acyclic h) {l : List BlkId}
    (hp : l.Pairwise (fun x y => Anc h y x)) : l.Nodup :=
  hp.imp (fun {x y} (hxy : Anc h y x) (e : x = y) => hA x (by subst e; exact hxy))

/-- C12 (partial): in a tree `full_name` terminates for every block. -/
theorem C12_full_name_partial {h : Heap} (hr : h.Reachable) (hA : Acyclic h) {b : BlkId} (hb : b < h.next) :
    ∃ v, fullName h (h.next + 1) b = some v := by
  obtain ⟨hC, hF⟩ := reachable_inv hr
  cases hf : fullName h (h.next + 1) b with
  | some v => exact ⟨v, rfl⟩
  | none =>
    obtain ⟨l, h1, h2, _, h4⟩ := fullName_none hC hF _ b hb hf
    have := length_le (nodup_of_pairwise hA h2) h4
    omega

theorem mapM_none {α β : Type} (f : α → Option β) (l : List α) (h : l.mapM f = none) :
    ∃ a ∈ l, f a = none := by
  induction l with
  | nil => simp at h
  | cons a l ih =>
    cases hf : f a with
    | none => exact ⟨a, by simp, hf⟩
    | some b =>
      rw [List.mapM_cons, hf] at h
      have : l.mapM f = none := by
        cases hm : l.mapM f with
        | none => rfl
        | some bs => rw [hm] at h; simp at h
      obtain ⟨x, hx, e⟩ := ih this
      exact ⟨x, by simp [hx], e⟩

theorem mapM_some {α β : Type} (f : α → Option β) (l : List α) (bs : List β) (h : l.mapM f = some bs) :
    List.Forall₂ (fun a b => f a = some b) l bs := by
  induction l generalizing bs with
  | nil => simp at h; subst h; exact .nil
  | cons a l ih =>
    rw [List.mapM_cons] at h
    cases hf : f a with
    | none => rw [hf] at h; simp at h
    | some b =>
      rw [hf] at h
      cases hm : l.mapM f with
      | none => rw [hm] at h; simp at h
      | some cs =>
        rw [hm] at h; simp at h; subst h
        exact .cons hf (ih cs hm)

section
variable {K : Type} (leafOf : BlkId → Leaf K) (linksOf : BlkId → List (SigId × Flags))

theorem unfold_none {h : Heap} (hC : Consistent h) (hF : Fresh h) (n : Nat) (b : BlkId) (hb : b < h.next)
    (hn : unfold h leafOf linksOf n b = none) :
    ∃ l : List BlkId, l.length = n ∧ l.Pairwise (fun x y => Anc h x y) ∧
      (∀ x ∈ l, x = b ∨ Anc h b x) ∧ ∀ x ∈ l, x < h.next := by
  induction n generalizing b with
  | zero => exact ⟨[], rfl, .nil, by simp, by simp⟩
  | succ n ih =>
    simp only [unfold] at hn
    split at hn
    · simp at hn
      obtain ⟨c, hc, e⟩ := mapM_none _ _ hn
      have hcp := (hC.iff_parent b c).1 hc
      have hcn : c < h.next := by
        rcases Nat.lt_or_ge c h.next with h1 | h1
        · exact h1
        · rw [(hF c h1).1] at hcp; cases hcp
      obtain ⟨l, h1, h2, h3, h4⟩ := ih c hcn e
      have hanc : ∀ x ∈ l, Anc h b x := by
        intro x hx
        rcases h3 x hx with rfl | h5
        · exact .parent hcp
        · exact Anc.trans (.parent hcp) h5
      refine ⟨b :: l, by simp [h1], List.pairwise_cons.2 ⟨hanc, h2⟩, ?_, ?_⟩
      · intro x hx
        rcases List.mem_cons.1 hx with rfl | hx
        · exact Or.inl rfl
        · exact Or.inr (hanc x hx)
      · intro x hx
        rcases List.mem_cons.1 hx with rfl | hx
        · exact hb
        · exact h4 x hx
    · cases hn

/-- Ancestors of a block are comparable. -/
theorem anc_linear {h : Heap} {a b x : BlkId} (ha : Anc h a x) (hb : Anc h b x) :
    a = b ∨ Anc h a b ∨ Anc h b a := by
  induction ha with
  | parent hp =>
    cases hb with
    | parent hq => rw [hp] at hq; cases hq; exact Or.inl rfl
    | up hq h2 => rw [hp] at hq; cases hq; exact Or.inr (Or.inr h2)
  | up hp h1 ih =>
    cases hb with
    | parent hq => rw [hp] at hq; cases hq; exact Or.inr (Or.inl h1)
    | up hq h2 => rw [hp] at hq; cases hq; exact ih h2

mutual
theorem mem_all_id (b : Block K) : b.id ∈ b.all.map Block.id := by
  cases b <;> simp [Block.all, Block.id]
end

theorem unfold_id {h : Heap} {n : Nat} {b : BlkId} {B : Block K} (e : unfold h leafOf linksOf n b = some B) :
    B.id = b := by
  cases n with
  | zero => simp [unfold] at e
  | succ n =>
    simp only [unfold] at e
    split at e
    · simp at e; obtain ⟨ks, _, rfl⟩ := e; rfl
    · simp at e; subst e; rfl

/-- The blocks of the unfolded tree are the root and blocks below it, each once. -/
theorem unfold_nodup {h : Heap} (hC : Consistent h) (hA : Acyclic h) (n : Nat) (b : BlkId) (B : Block K)
    (e : unfold h leafOf linksOf n b = some B) :
    (B.all.map Block.id).Nodup ∧ ∀ x ∈ B.all.map Block.id, x = b ∨ Anc h b x := by
  induction n generalizing b B with
  | zero => simp [unfold] at e
  | succ n ih =>
    simp only [unfold] at e
    split at e
    · simp at e
      obtain ⟨ks, hk, rfl⟩ := e
      have hf := mapM_some _ _ _ hk
      have hpar : ∀ c ∈ h.kids b, h.parent c = some b := fun c hc => (hC.iff_parent b c).1 hc
      have hnd := hC.once b
      have key : ∀ (cs : List BlkId) (ks : List (Block K)),
          List.Forall₂ (fun a b => unfold h leafOf linksOf n a = some b) cs ks → cs.Nodup →
          (∀ c ∈ cs, h.parent c = some b) →
          ((allL ks).map Block.id).Nodup ∧
          ∀ x ∈ (allL ks).map Block.id, ∃ c ∈ cs, x = c ∨ Anc h c x := by
        intro cs ks hf
        induction hf with
        | nil => intro _ _; simp [allL]
        | @cons c k cs ks h1 _ ih2 =>
          intro hnd hpar
          obtain ⟨i1, i2⟩ := ih c k h1
          obtain ⟨j1, j2⟩ := ih2 (List.nodup_cons.1 hnd).2 (fun d hd => hpar d (by simp [hd]))
          simp only [allL, List.map_append]
          refine ⟨List.nodup_append.2 ⟨i1, j1, ?_⟩, ?_⟩
          · intro x hx y hy exy
            subst exy
            obtain ⟨d, hd, hdx⟩ := j2 x hy
            have hcd : c ≠ d := fun e => (List.nodup_cons.1 hnd).1 (e ▸ hd)
            have hpc := hpar c (by simp)
            have hpd := hpar d (by simp [hd])
            -- c and d are siblings and both above x
            have cmp : c = d ∨ Anc h c d ∨ Anc h d c := by
              rcases i2 x hx with rfl | hcx
              · rcases hdx with rfl | hdx
                · exact Or.inl rfl
                · exact Or.inr (Or.inr hdx)
              · rcases hdx with rfl | hdx
                · exact Or.inr (Or.inl hcx)
                · exact anc_linear hcx hdx
            have sib : ∀ u v, h.parent u = some b → h.parent v = some b → ¬ Anc h u v := by
              intro u v hu hv huv
              cases huv with
              | parent hq => rw [hv] at hq; cases hq; exact hA _ (.parent hu)
              | up hq h2 => rw [hv] at hq; cases hq; exact hA u (.up hu h2)
            rcases cmp with h3 | h3 | h3
            · exact hcd h3
            · exact sib c d hpc hpd h3
            · exact sib d c hpd hpc h3
          · intro x hx
            rcases List.mem_append.1 hx with hx | hx
            · exact ⟨c, by simp, i2 x hx⟩
            · obtain ⟨d, hd, e⟩ := j2 x hx
              exact ⟨d, by simp [hd], e⟩
      obtain ⟨k1, k2⟩ := key _ _ hf hnd hpar
      have hbelow : ∀ x ∈ (allL ks).map Block.id, Anc h b x := by
        intro x hx
        obtain ⟨c, hc, e⟩ := k2 x hx
        rcases e with rfl | e
        · exact .parent (hpar _ hc)
        · exact Anc.trans (.parent (hpar c hc)) e
      simp only [Block.all, List.map_cons, Block.id]
      refine ⟨List.nodup_cons.2 ⟨fun hb => hA b (hbelow b hb), k1⟩, ?_⟩
      intro x hx
      rcases List.mem_cons.1 hx with rfl | hx
      · exact Or.inl rfl
      · exact Or.inr (hbelow x hx)
    · simp at e; subst e
      simp [Block.all, Block.id]

/-- C12 (partial): in a tree the recursions of `visit` and `process` terminate: the hierarchy below any
block unfolds to a finite tree, in which every block appears once. -/
theorem C12_tree_partial {h : Heap} (hr : h.Reachable) (hA : Acyclic h) {b : BlkId} (hb : b < h.next) :
    ∃ B, unfold h leafOf linksOf (h.next + 1) b = some B ∧ B.id = b ∧ (B.all.map Block.id).Nodup := by
  obtain ⟨hC, hF⟩ := reachable_inv hr
  cases hf : unfold h leafOf linksOf (h.next + 1) b with
  | some B => exact ⟨B, rfl, unfold_id leafOf linksOf hf, (unfold_nodup leafOf linksOf hC hA _ _ _ hf).1⟩
  | none =>
    obtain ⟨l, h1, h2, _, h4⟩ := unfold_none leafOf linksOf hC hF _ b hb hf
    have hn : l.Nodup := h2.imp (fun {x y} (hxy : Anc h x y) (e : x = y) => hA x (by subst e; exact hxy))
    have := length_le hn h4
    omega

end

/-- The sample program of C11 observes the guard (block 2 already has a parent). -/
example : Guarded sample := by
  refine .step _ (.step _ (.step _ (.step _ .empty ?_ ?_) ?_ ?_) ?_ ?_) ?_ ?_
  · trivial
  · trivial
  · trivial
  · trivial
  · exact ⟨by decide +kernel, by decide +kernel⟩
  · trivial
  · exact ⟨by decide +kernel, by decide +kernel, by decide +kernel⟩
  · intro h; exact absurd h (by decide +kernel)

end Pooya.C12
