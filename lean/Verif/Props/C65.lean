import Verif.Proof.Mirror
import Verif.Spec.Demo

/-! # C65: evaluating a hierarchy through its pointers

The properties of evaluations (C13 and those that follow) are about trees of blocks. The code has no trees: it follows the pointers to the children from block to block, and
the pointers to the parents for the messages of the traceback. Here it is shown that the calls through pointers do what the calls on the tree do. -/

namespace Pooya.C65

open Pooya C11 C12

set_option linter.unusedSectionVars false

variable {K : Type} [Arith K] {σ : Type} {dbg : Bool} {leafOf : BlkId → Leaf K} {linksOf : BlkId → List (SigId × Flags)}

variable {s : Store (World K)} {b : BlkId} {B : Block K} {m n : Nat}

/-- Marking all blocks below `b` as unprocessed. -/
theorem C65_mark (hr : s.Reached dbg false) (hA : Acyclic s.heap) (hb : b < s.heap.next)
    (hB : unfold s.heap leafOf linksOf m b = some B) (hn : m + s.heap.next + 1 ≤ n) : Mirrors s (markP dbg (leafFlag leafOf) n b s) (B.mark (worldOf s)) :=
  mark_mirrors (known hr hA) hb hB hn s rfl rfl

/-- One call of `process`. -/
theorem C65_process (hr : s.Reached dbg false) (hA : Acyclic s.heap) (hb : b < s.heap.next) (hB : unfold s.heap leafOf linksOf m b = some B)
    (hn : m + s.heap.next + 1 ≤ n) (t : K) : Mirrors s (processP dbg (leafAct dbg t leafOf) n b s) (B.process dbg t (worldOf s)) :=
  process_mirrors (known hr hA) hb hB hn s rfl rfl

/-- The whole evaluation: marking, then `process` until nothing is left to process. -/
theorem C65_evaluate (hr : s.Reached dbg false) (hA : Acyclic s.heap) (hb : b < s.heap.next)
    (hB : unfold s.heap leafOf linksOf m b = some B) (hn : m + s.heap.next + 1 ≤ n) (t : K) (k : Nat) :
    Mirrors s ((do markP dbg (leafFlag leafOf) n b; plainLoopP (processP dbg (leafAct dbg t leafOf) n b) k : LM (World K) Unit) s) ((do B.mark; plainLoop dbg t B k : M K Unit) (worldOf s)) :=
  mirrors_bind (mark_mirrors (known hr hA) hb hB hn) (fun _ => plain_mirrors (known hr hA) hb hB hn k) s rfl rfl

/-- `pre_step` and `post_step`. -/
theorem C65_step (hr : s.Reached dbg false) (hA : Acyclic s.heap) (hb : b < s.heap.next) (hB : unfold s.heap leafOf linksOf m b = some B)
    (hn : m + s.heap.next + 1 ≤ n) (t : K) :
    Mirrors s (stepP dbg 40 (fun b => onWorld ((leafAt leafOf b).pre dbg t)) n b s) (B.preStep dbg t (worldOf s)) ∧
    Mirrors s (stepP dbg 49 (fun b => onWorld ((leafAt leafOf b).post dbg t)) n b s) (B.postStep dbg t (worldOf s)) :=
  ⟨step_mirrors (known hr hA) (g := Block.preStep dbg t) (gL := preStepL dbg t) (gl := fun l => l.pre dbg t) (fun _ => rfl) (fun _ _ _ => rfl) rfl (fun _ _ => rfl) hb hB hn s rfl rfl,
   step_mirrors (known hr hA) (g := Block.postStep dbg t) (gL := postStepL dbg t) (gl := fun l => l.post dbg t) (fun _ => rfl) (fun _ _ _ => rfl) rfl (fun _ _ => rfl) hb hB hn s rfl rfl⟩

/-- A visitor sees the blocks of the tree, in its order, and stops where it would stop in the tree. -/
theorem C65_visit {s : Store σ} (hr : s.Reached dbg false) (hA : Acyclic s.heap) (hb : b < s.heap.next) (hB : unfold s.heap leafOf linksOf m b = some B)
    (hn : m + s.heap.next + 1 ≤ n) (v : Visitor σ K) {blockOf : BlkId → Block K} (hof : ∀ x X k, unfold s.heap leafOf linksOf k x = some X → blockOf x = X) (level maxLevel : Nat) :
    visitP dbg (seen blockOf v) n b level maxLevel s = .ok (B.visit v level maxLevel s.ext).1 { s with ext := (B.visit v level maxLevel s.ext).2 } :=
  visit_acts (known hr hA) hb hB hof hn s rfl rfl

/-- There is a tree to speak of, in every hierarchy built without destroying blocks or closing a cycle. -/
theorem C65_tree {s : Store σ} (hr : s.Reached dbg false) (hA : Acyclic s.heap) (hb : b < s.heap.next) (leafOf : BlkId → Leaf K) (linksOf : BlkId → List (SigId × Flags)) :
    ∃ B, unfold s.heap leafOf linksOf (s.heap.next + 1) b = some B ∧ B.id = b ∧ (B.all.map Block.id).Nodup :=
  C12_tree_partial leafOf linksOf (C62.inv hr).heap hA hb

/-! ## Example -/

/-- The diagram of `Demo`, with the blocks numbered in the order of construction. -/
def demoLeaf (b : BlkId) : Leaf ℚ := if b = 1 then Demo.add else if b = 3 then Demo.gain else if b = 4 then Demo.source else Demo.integ

def demoWorld : World ℚ := { Demo.world with sig := upd Demo.world.sig 2 { ty := .scalar, assigned := true, value := some (.scalar 5) } }

def demoTree : Block ℚ := .sub 0 [] [.leaf (leafAt demoLeaf 1), .sub 2 [] [.leaf (leafAt demoLeaf 3)], .leaf (leafAt demoLeaf 4), .leaf (leafAt demoLeaf 5)]

def demoOps : List (LOp (World ℚ)) :=
  [.new true none (str "m"), .new false (some 0) (str "add"), .new true (some 0) (str "inner"), .new false (some 2) (str "gain"), .new false (some 0) (str "source"),
    .new false (some 0) (str "integ")]

def demoStore (dbg : Bool) (k : Nat) : Store (World ℚ) := (demoOps.take k).foldl (fun s op => C62.next (op.exec dbg 4 s)) (Store.empty demoWorld)

theorem demo_reached (dbg : Bool) : (demoStore dbg 6).Reached dbg false := by
  have go : ∀ k op, demoOps[k]? = some op → (demoStore dbg k).Reached dbg false → op.Valid (demoStore dbg k) → op.Tame → op.isDestroy = false →
      C62.isOk (op.exec dbg 4 (demoStore dbg k)) = true → (demoStore dbg (k + 1)).Reached dbg false := by
    intro k op hk hr hv ht hd ho
    have : demoStore dbg (k + 1) = C62.next (op.exec dbg 4 (demoStore dbg k)) := by
      unfold demoStore
      rw [List.take_add_one, hk]
      simp
    rw [this]
    exact .step op hr hv ht (fun e => by rw [hd] at e; cases e) (C62.eq_of_isOk ho)
  have h0 : (demoStore dbg 0).Reached dbg false := .empty
  have h1 := go 0 _ rfl h0 trivial trivial rfl (by cases dbg <;> decide +kernel)
  have h2 := go 1 _ rfl h1 (show (demoStore dbg 1).alive 0 = true ∧ ((demoStore dbg 1).heap.node 0).isSub = true by cases dbg <;> decide +kernel) trivial rfl (by cases dbg <;> decide +kernel)
  have h3 := go 2 _ rfl h2 (show (demoStore dbg 2).alive 0 = true ∧ ((demoStore dbg 2).heap.node 0).isSub = true by cases dbg <;> decide +kernel) trivial rfl (by cases dbg <;> decide +kernel)
  have h4 := go 3 _ rfl h3 (show (demoStore dbg 3).alive 2 = true ∧ ((demoStore dbg 3).heap.node 2).isSub = true by cases dbg <;> decide +kernel) trivial rfl (by cases dbg <;> decide +kernel)
  have h5 := go 4 _ rfl h4 (show (demoStore dbg 4).alive 0 = true ∧ ((demoStore dbg 4).heap.node 0).isSub = true by cases dbg <;> decide +kernel) trivial rfl (by cases dbg <;> decide +kernel)
  exact go 5 _ rfl h5 (show (demoStore dbg 5).alive 0 = true ∧ ((demoStore dbg 5).heap.node 0).isSub = true by cases dbg <;> decide +kernel) trivial rfl (by cases dbg <;> decide +kernel)

theorem demo_acyclic (dbg : Bool) : Acyclic (demoStore dbg 6).heap := by
  have hF := (reachable_inv (C62.inv (demo_reached dbg)).heap).2
  have hn : (demoStore dbg 6).heap.next = 6 := by cases dbg <;> decide +kernel
  have step : ∀ b p : Nat, (demoStore dbg 6).heap.parent b = some p → p < b := by
    intro b p e
    rcases Nat.lt_or_ge b 6 with h | h
    · have : ∀ b < 6, ∀ p ∈ (demoStore dbg 6).heap.parent b, p < b := by cases dbg <;> decide +kernel
      exact this b h p e
    · rw [(hF b (by rw [hn]; exact h)).1] at e; cases e
  have anc : ∀ a b : Nat, Anc (demoStore dbg 6).heap a b → a < b := by
    intro a b h
    induction h with
    | parent e => exact step _ _ e
    | up e _ ih => exact Nat.lt_trans ih (step _ _ e)
  exact fun b h => Nat.lt_irrefl _ (anc b b h)

def ended (r : EStateM.Result Err (Store (World ℚ)) Unit) : Option (World ℚ) := match r with | .ok _ s => some (worldOf s) | .error _ _ => none

/-- The derivative 2 (t + 1) + x comes out, at t = 3 and x = 5, in both builds. -/
example (dbg : Bool) : (demoStore dbg 6).Reached dbg false ∧ Acyclic (demoStore dbg 6).heap ∧ unfold (demoStore dbg 6).heap demoLeaf (fun _ => []) 4 0 = some demoTree ∧
    ((ended ((do markP dbg (leafFlag demoLeaf) 11 0; plainLoopP (processP dbg (leafAct dbg 3 demoLeaf) 11 0) 5 : LM (World ℚ) Unit) (demoStore dbg 6))).map fun w => (w.sig 3).value) =
      some (some (.scalar 13)) :=
  ⟨demo_reached dbg, demo_acyclic dbg, by cases dbg <;> rfl, by cases dbg <;> decide +kernel⟩

end Pooya.C65
