import Verif.Model.Engine

/-! # C13 — visit is a pre-order traversal with level cut-off -/

namespace Pooya.C13

variable {K σ : Type}

mutual
/-- Specification: all blocks of a hierarchy with their level, each before its children, children in
insertion order. -/
def levels (lv : Nat) : Block K → List (Block K × Nat)
  | .leaf l => [(.leaf l, lv)]
  | .sub i ls kids => (.sub i ls kids, lv) :: levelsL (lv + 1) kids
def levelsL (lv : Nat) : List (Block K) → List (Block K × Nat)
  | [] => []
  | b :: bs => levels lv b ++ levelsL lv bs
end

/-- Specification: call `cb` on the elements in order, stopping right after the first `false`. -/
def callUntil (cb : Visitor σ K) : List (Block K × Nat) → σ → Bool × σ
  | [], s => (true, s)
  | (b, lv) :: rest, s =>
    match cb b lv s with
    | (false, s') => (false, s')
    | (true, s') => callUntil cb rest s'

theorem callUntil_append (cb : Visitor σ K) (a b : List (Block K × Nat)) (s : σ) :
    callUntil cb (a ++ b) s =
      match callUntil cb a s with
      | (false, s') => (false, s')
      | (true, s') => callUntil cb b s' := by
  induction a generalizing s with
  | nil => rfl
  | cons p a ih =>
    obtain ⟨x, lv⟩ := p
    simp only [List.cons_append, callUntil]
    rcases h : cb x lv s with ⟨_ | _, s'⟩
    · rfl
    · exact ih s'

mutual
/-- Levels never decrease below the starting level. -/
theorem le_level (lv : Nat) (b : Block K) : ∀ p ∈ levels lv b, lv ≤ p.2 := by
  cases b with
  | leaf l => intro p hp; simp [levels] at hp; subst hp; exact Nat.le_refl _
  | sub i ls kids =>
    intro p hp
    simp only [levels, List.mem_cons] at hp
    rcases hp with rfl | hp
    · exact Nat.le_refl _
    · have := le_levelL (lv + 1) kids p hp; omega
theorem le_levelL (lv : Nat) (bs : List (Block K)) : ∀ p ∈ levelsL lv bs, lv ≤ p.2 := by
  cases bs with
  | nil => intro p hp; simp [levelsL] at hp
  | cons b bs =>
    intro p hp
    simp only [levelsL, List.mem_append] at hp
    rcases hp with hp | hp
    · exact le_level lv b p hp
    · exact le_levelL lv bs p hp
end

theorem filter_nil {l : List (Block K × Nat)} {lv m : Nat} (h : ∀ p ∈ l, lv ≤ p.2) (hm : m < lv) :
    l.filter (fun p => p.2 ≤ m) = [] := by
  rw [List.filter_eq_nil_iff]
  intro p hp
  have := h p hp
  simp; omega

mutual
/-- C13: `visit` calls the callback on exactly the blocks of level at most `m`, in pre-order and with
their levels, stopping right after the first `false`; its result is `false` exactly in that case. -/
theorem C13_visit (cb : Visitor σ K) (lv m : Nat) (b : Block K) (s : σ) :
    b.visit cb lv m s = callUntil cb ((levels lv b).filter (fun p => p.2 ≤ m)) s := by
  cases b with
  | leaf l =>
    by_cases h : m < lv
    · rw [filter_nil (le_level lv _) h]; simp [Block.visit, h, callUntil]
    · have : lv ≤ m := by omega
      simp only [Block.visit, h, levels, callUntil, List.filter, this, decide_true, if_false]
      rcases cb (.leaf l) lv s with ⟨_ | _, s'⟩ <;> rfl
  | sub i ls kids =>
    by_cases h : m < lv
    · rw [filter_nil (le_level lv _) h]; simp [Block.visit, h, callUntil]
    · have h1 : lv ≤ m := by omega
      simp only [Block.visit, h, if_false, levels, List.filter, h1, decide_true, callUntil]
      rcases cb (.sub i ls kids) lv s with ⟨_ | _, s'⟩
      · rfl
      · by_cases h2 : lv < m
        · simp only [h2, if_true]
          exact C13_visitL cb (lv + 1) m kids s'
        · rw [filter_nil (le_levelL (lv + 1) kids) (by omega)]
          simp [h2, callUntil]
/-- The loop over the children. -/
theorem C13_visitL (cb : Visitor σ K) (lv m : Nat) (bs : List (Block K)) (s : σ) :
    visitL cb lv m bs s = callUntil cb ((levelsL lv bs).filter (fun p => p.2 ≤ m)) s := by
  cases bs with
  | nil => rfl
  | cons b bs =>
    simp only [visitL, levelsL, List.filter_append, callUntil_append]
    rw [C13_visit cb lv m b s]
    rcases callUntil cb ((levels lv b).filter (fun p => p.2 ≤ m)) s with ⟨_ | _, s'⟩
    · rfl
    · exact C13_visitL cb lv m bs s'
end

/-- C13: with a recording callback and no limit every block is visited once, with its level. -/
theorem C13_all (b : Block K) (m : Nat) (h : ∀ p ∈ levels 0 b, p.2 ≤ m) :
    b.visit (fun b lv (s : List (Block K × Nat)) => (true, s ++ [(b, lv)])) 0 m [] =
      (true, levels 0 b) := by
  have key : ∀ (l acc : List (Block K × Nat)),
      callUntil (fun b lv (s : List (Block K × Nat)) => (true, s ++ [(b, lv)])) l acc = (true, acc ++ l) := by
    intro l
    induction l with
    | nil => intro acc; simp [callUntil]
    | cons p l ih => intro acc; obtain ⟨x, lv⟩ := p; simp [callUntil, ih]
  rw [C13_visit, key]
  have : (levels 0 b).filter (fun p => p.2 ≤ m) = levels 0 b := by
    rw [List.filter_eq_self]; intro p hp; simp [h p hp]
  simp [this]

/-- Depth 2 cut at level 1, stopping at block 3: blocks 0, 1, 3 are called. -/
example :
    let m : Block Nat := .sub 0 [] [.sub 1 [] [.leaf ⟨2, [], .builder⟩], .leaf ⟨3, [], .builder⟩, .leaf ⟨4, [], .builder⟩]
    m.visit (fun b lv (s : List (Nat × Nat)) => (b.id != 3, s ++ [(b.id, lv)])) 0 1 [] =
      (false, [(0, 0), (1, 1), (3, 1)]) := by
  decide +kernel

end Pooya.C13
