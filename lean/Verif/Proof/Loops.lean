import Verif.Proof.Process
import Mathlib.Data.List.Perm.Subperm

/-! `while (_model.process(t)) {}`, the sweeps of `reuse_order` and the ordering pass of `FastSimulator`. -/

namespace Pooya

set_option linter.unusedSectionVars false

variable {K : Type} [Arith K] {dbg : Bool} {t : K} {I : BlkId → Prop}

/-- The ids of the leaves of a hierarchy. -/
def Block.leafId (b : Block K) (x : BlkId) : Prop := x ∈ b.leaves.map Leaf.id

theorem eq_of_id_eq {b c d : Block K} (hp : b.Proper) (hc : c ∈ b.all) (hd : d ∈ b.all) (h : c.id = d.id) :
    c = d := List.inj_on_of_nodup_map hp hc hd h

theorem Block.Proper.sorted {b : Block K} (hp : b.Proper) : Sorted b.leafId b.all := by
  intro c hc
  cases c with
  | leaf l =>
    simp only [Block.isLeaf, if_true]
    exact List.mem_map_of_mem ((leaf_mem_all b l).2 hc)
  | sub i ls kids =>
    simp only [Block.isLeaf, Bool.false_eq_true, if_false]
    intro h
    obtain ⟨l, hl, e⟩ := List.mem_map.1 h
    have := eq_of_id_eq hp hc ((leaf_mem_all b l).1 hl) e.symm
    cases this

theorem Block.Proper.leafNodup {b : Block K} (hp : b.Proper) : (b.leaves.map Leaf.id).Nodup :=
  (leaves_sublist b).nodup hp

/-! ### `mark` -/

/-- The value `_mark_unprocessed` gives to the flag. -/
def Block.isBuilder : Block K → Bool
  | .leaf l => match l.kind with | .builder => true | _ => false
  | .sub _ _ _ => false

/-- Only flags change, and only those of the objects of the hierarchy. -/
structure Marked (cs : List (Block K)) (w w' : World K) : Prop where
  sig : w'.sig = w.sig
  mem : w'.mem = w.mem
  log : w'.log = w.log
  frame : ∀ x, x ∉ cs.map Block.id → w'.done x = w.done x
  done : ∀ c ∈ cs, w'.done c.id = c.isBuilder

mutual
theorem mark_ok (b : Block K) (hn : b.ids.Nodup) (w : World K) :
    ∃ w', b.mark w = .ok () w' ∧ Marked b.all w w' := by
  cases b with
  | leaf l =>
    refine ⟨_, rfl, rfl, rfl, rfl, ?_, ?_⟩
    · intro x hx
      have : x ≠ l.id := by simpa [Block.all, Block.id] using hx
      simp [upd, this]
    · intro c hc
      simp only [Block.all, List.mem_singleton] at hc
      subst hc
      simp only [upd, Block.id, if_true, Block.isBuilder]
      cases l.kind <;> rfl
  | sub i ls kids =>
    rw [ids_sub, List.nodup_cons] at hn
    obtain ⟨w', h, hm⟩ := markL_ok kids hn.2 { w with done := upd w.done i false }
    refine ⟨w', ?_, hm.sig, hm.mem, hm.log, ?_, ?_⟩
    · simp only [Block.mark, bind_apply, setDone]; exact h
    · intro x hx
      simp only [Block.all, List.map_cons, List.mem_cons, not_or, Block.id] at hx
      rw [hm.frame x hx.2]
      simp [upd, hx.1]
    · intro c hc
      simp only [Block.all, List.mem_cons] at hc
      rcases hc with rfl | hc
      · show w'.done i = false
        rw [hm.frame i hn.1]
        simp [upd]
      · exact hm.done c hc
theorem markL_ok (bs : List (Block K)) (hn : (idsL bs).Nodup) (w : World K) :
    ∃ w', markL bs w = .ok () w' ∧ Marked (allL bs) w w' := by
  cases bs with
  | nil => exact ⟨w, rfl, rfl, rfl, rfl, fun _ _ => rfl, fun c hc => by simp [allL] at hc⟩
  | cons b bs =>
    rw [idsL_cons] at hn
    have hnd := List.nodup_append.1 hn
    obtain ⟨w1, h1, m1⟩ := mark_ok b hnd.1 w
    obtain ⟨w2, h2, m2⟩ := markL_ok bs hnd.2.1 w1
    refine ⟨w2, ?_, m2.sig.trans m1.sig, m2.mem.trans m1.mem, m2.log.trans m1.log, ?_, ?_⟩
    · simp only [markL, bind_apply, h1]; exact h2
    · intro x hx
      simp only [allL, List.map_append, List.mem_append, not_or] at hx
      rw [m2.frame x hx.2, m1.frame x hx.1]
    · intro c hc
      simp only [allL, List.mem_append] at hc
      rcases hc with hc | hc
      · rw [m2.frame c.id (fun h => hnd.2.2 c.id (List.mem_map_of_mem hc) c.id h rfl)]
        exact m1.done c hc
      · exact m2.done c hc
end

/-- After `mark` no submodel is processed. -/
theorem marked_closed {b : Block K} {w w' : World K} (hm : Marked b.all w w') : Closed b.all w' := by
  intro c hc hd x hx
  cases c with
  | leaf l =>
    rw [ids_leaf, List.mem_singleton] at hx
    subst hx; exact hd
  | sub i ls kids =>
    have := hm.done _ hc
    rw [hd] at this
    simp [Block.isBuilder] at this

/-! ### The plain loop -/

/-- The outcomes of a loop that runs leaves of `L` until none can run. -/
def Completes (dbg : Bool) (t : K) (I : BlkId → Prop) (L : List (Leaf K)) {α : Type} (x : M K α) (w : World K)
    (Q : α → List (Leaf K) → World K → Prop) : Prop :=
  Evals dbg t I L x w (fun a ls w' => Stuck L w' ∧ Q a ls w')

/-- Lists without repetition in `L` are not longer than `L`. -/
theorem length_le_of_nodup {α β : Type} [DecidableEq β] {f : α → β} {a L : List α} (hn : (a.map f).Nodup)
    (h : ∀ x ∈ a, x ∈ L) : a.length ≤ L.length := by
  have : (a.map f).length ≤ (L.map f).length := by
    refine (List.subperm_of_subset hn ?_).length_le
    intro y hy
    obtain ⟨x, hx, rfl⟩ := List.mem_map.1 hy
    exact List.mem_map_of_mem (h x hx)
  simpa using this

theorem plainLoop_aux {b : Block K} (hp : b.Proper) (n : Nat) (w : World K) (hc : Closed b.all w) :
    match plainLoop dbg t b n w with
    | .ok _ w' => ∃ ls, (∀ l ∈ ls, l ∈ b.leaves) ∧ Steps dbg t b.leafId w ls w' ∧ Stuck b.leaves w' ∧
        Closed b.all w' ∧ Exact b.all w'
    | .error e w' =>
      (∃ ls wm, (∀ l ∈ ls, l ∈ b.leaves) ∧ Steps dbg t b.leafId w ls wm ∧ FailsAt dbg t b.leaves wm e w') ∨
      (∃ ls, (∀ l ∈ ls, l ∈ b.leaves) ∧ Steps dbg t b.leafId w ls w' ∧ n ≤ ls.length) := by
  induction n generalizing w with
  | zero => exact Or.inr ⟨[], by simp, .nil w, by simp⟩
  | succ n ih =>
    simp only [plainLoop, bind_apply]
    have h := evals_process (dbg := dbg) (t := t) b w hp hp.sorted hc
    unfold Evals at h
    cases hx : b.process dbg t w with
    | error e w' =>
      rw [hx] at h
      exact Or.inl h
    | ok k w1 =>
      rw [hx] at h
      obtain ⟨ls, h1, h2, h3⟩ := h
      simp only
      by_cases hk : k = 0
      · simp only [hk, if_true, pure_apply]
        exact ⟨ls, h1, h2, h3.stuck hk, h3.closed, h3.exact⟩
      · simp only [hk, if_false]
        have := ih w1 h3.closed
        have hlen : 1 ≤ ls.length := by rw [← h3.count]; omega
        cases hy : plainLoop dbg t b n w1 with
        | ok u w' =>
          rw [hy] at this
          obtain ⟨ls', g1, g2, g3⟩ := this
          refine ⟨ls ++ ls', ?_, h2.append g2, g3⟩
          intro l hl
          rcases List.mem_append.1 hl with hl | hl
          · exact h1 l hl
          · exact g1 l hl
        | error e w' =>
          rw [hy] at this
          rcases this with ⟨ls', wm, g1, g2, g3⟩ | ⟨ls', g1, g2, g3⟩
          · refine Or.inl ⟨ls ++ ls', wm, ?_, h2.append g2, g3⟩
            intro l hl
            rcases List.mem_append.1 hl with hl | hl
            · exact h1 l hl
            · exact g1 l hl
          · refine Or.inr ⟨ls ++ ls', ?_, h2.append g2, ?_⟩
            · intro l hl
              rcases List.mem_append.1 hl with hl | hl
              · exact h1 l hl
              · exact g1 l hl
            · rw [List.length_append]; omega

/-- The plain loop completes within `leaves + 1` passes. -/
theorem plainLoop_completes {b : Block K} (hp : b.Proper) {n : Nat} (hn : b.leaves.length < n) (w : World K)
    (hc : Closed b.all w) :
    Completes dbg t b.leafId b.leaves (plainLoop dbg t b n) w (fun _ _ w' => Exact b.all w') := by
  have h := plainLoop_aux (dbg := dbg) (t := t) hp n w hc
  unfold Completes Evals
  cases hx : plainLoop dbg t b n w with
  | ok u w' =>
    rw [hx] at h
    obtain ⟨ls, h1, h2, h3, h4, h5⟩ := h
    exact ⟨ls, h1, h2, h3, h5⟩
  | error e w' =>
    rw [hx] at h
    rcases h with h | ⟨ls, h1, h2, h3⟩
    · exact h
    · exfalso
      have hb := h2.basic (fun l hl => List.mem_map_of_mem (h1 l hl))
      have := length_le_of_nodup hb.nodup h1
      omega

/-! ### Sweeps over a list of blocks -/

/-- The leaves among the blocks. -/
def leavesOf (po : List (Block K)) : List (Leaf K) :=
  po.filterMap (fun b => match b with | .leaf l => some l | .sub _ _ _ => none)

theorem mem_leavesOf {po : List (Block K)} {l : Leaf K} : l ∈ leavesOf po ↔ Block.leaf l ∈ po := by
  simp only [leavesOf, List.mem_filterMap]
  constructor
  · rintro ⟨b, hb, h⟩
    cases b with
    | leaf l' => simp only [Option.some.injEq] at h; subst h; exact hb
    | sub i ls kids => cases h
  · intro h; exact ⟨_, h, rfl⟩

theorem leavesOf_cons_leaf (l : Leaf K) (po : List (Block K)) : leavesOf (.leaf l :: po) = l :: leavesOf po := by
  simp [leavesOf]

theorem leavesOf_cons_sub (i : BlkId) (ls : List (SigId × Flags)) (kids po : List (Block K)) :
    leavesOf (.sub i ls kids :: po) = leavesOf po := by
  simp [leavesOf]

/-- Post-condition of sweeps: `new` are the blocks that became processed. -/
structure SweepPost (po : List (Block K)) (w : World K) (new : List (Block K)) (ls : List (Leaf K))
    (w' : World K) : Prop where
  run : ls = leavesOf new
  sub : ∀ b ∈ new, b ∈ po
  nodup : (new.map Block.id).Nodup
  fresh : ∀ b ∈ new, w.done b.id = false
  done : ∀ b ∈ po, (w'.done b.id = true ↔ w.done b.id = true ∨ b.id ∈ new.map Block.id)
  frame : ∀ x, x ∉ po.map Block.id → w'.done x = w.done x
  stuck : new = [] → ∀ l ∈ leavesOf po, ¬ Enabled l w'

theorem sweep_evals (po : List (Block K)) (hn : (po.map Block.id).Nodup) (hs : Sorted I po) (w : World K) :
    Evals dbg t I (leavesOf po) (reuseSweep dbg t po) w (SweepPost po w) := by
  induction po generalizing w with
  | nil =>
    simp only [reuseSweep]
    exact Evals.pure ⟨rfl, by simp, by simp, by simp, by simp, fun _ _ => rfl, by simp [leavesOf]⟩
  | cons b po ih =>
    simp only [List.map_cons, List.nodup_cons] at hn
    have hspo : Sorted I po := fun c hc => hs c (by simp [hc])
    -- continuing after the first block without having processed it
    have skip : ∀ w1 : World K, (∀ x, w1.done x = w.done x) → Steps dbg t I w [] w1 →
        (∀ l, b = .leaf l → ¬ Enabled l w1) →
        (match b with | .leaf _ => True | .sub i _ _ => w.done i = true) →
        Evals dbg t I (leavesOf (b :: po)) (reuseSweep dbg t po) w1 (SweepPost (b :: po) w) := by
      intro w1 hd hst hen hsub
      refine (ih hn.2 hspo w1).mono ?_ ?_
      · intro l hl; rw [mem_leavesOf] at hl ⊢; simp [hl]
      · intro new ls w' hls hst' hq
        have hb : w'.done b.id = w.done b.id := by rw [hq.frame _ hn.1, hd]
        refine ⟨hq.run, fun c hc => by simp [hq.sub c hc], hq.nodup,
          fun c hc => by rw [← hd]; exact hq.fresh c hc, ?_, ?_, ?_⟩
        · intro c hc
          rcases List.mem_cons.1 hc with rfl | hc
          · rw [hb]
            refine ⟨Or.inl, ?_⟩
            rintro (h | h)
            · exact h
            · obtain ⟨d, hd', e⟩ := List.mem_map.1 h
              exact (hn.1 (e ▸ List.mem_map_of_mem (hq.sub d hd'))).elim
          · rw [hq.done c hc, hd]
        · intro x hx
          simp only [List.map_cons, List.mem_cons, not_or] at hx
          rw [hq.frame x hx.2, hd]
        · intro hnew l hl
          rw [mem_leavesOf, List.mem_cons] at hl
          rcases hl with hl | hl
          · have h0 := hen l hl.symm
            have : ls = [] := by rw [hq.run, hnew]; rfl
            subst this
            have hI : I l.id := by
              have := hs b (by simp)
              rw [← hl] at this
              simpa [Block.isLeaf, Block.id] using this
            rw [hst'.nil_enabled hI]; exact h0
          · exact hq.stuck hnew l (mem_leavesOf.2 hl)
    -- continuing after having processed the first block
    have took : ∀ (w1 : World K) (ls1 : List (Leaf K)), (∀ x, x ≠ b.id → w1.done x = w.done x) →
        w1.done b.id = true → w.done b.id = false → ls1 = leavesOf [b] →
        Evals dbg t I (leavesOf (b :: po)) (do let rest ← reuseSweep dbg t po; pure (b :: rest)) w1
          (fun new ls' w' => SweepPost (b :: po) w new (ls1 ++ ls') w') := by
      intro w1 ls1 hd hd1 hd0 hls1
      refine Evals.bind (Q := SweepPost po w1) ((ih hn.2 hspo w1).mono ?_ (fun _ _ _ _ _ h => h)) ?_
      · intro l hl; rw [mem_leavesOf] at hl ⊢; simp [hl]
      · intro new ls w' hls hst' hq
        have hne : ∀ c ∈ po, c.id ≠ b.id := fun c hc e => hn.1 (e ▸ List.mem_map_of_mem hc)
        refine Evals.pure ⟨?_, ?_, ?_, ?_, ?_, ?_, by simp⟩
        · rw [hls1, hq.run, List.append_nil]
          cases b <;> simp [leavesOf]
        · intro c hc
          rcases List.mem_cons.1 hc with rfl | hc
          · simp
          · simp [hq.sub c hc]
        · simp only [List.map_cons, List.nodup_cons]
          refine ⟨?_, hq.nodup⟩
          intro h
          obtain ⟨d, hd', e⟩ := List.mem_map.1 h
          exact hne d (hq.sub d hd') e
        · intro c hc
          rcases List.mem_cons.1 hc with rfl | hc
          · exact hd0
          · rw [← hd _ (hne c (hq.sub c hc))]; exact hq.fresh c hc
        · intro c hc
          rcases List.mem_cons.1 hc with rfl | hc
          · rw [hq.frame _ hn.1, hd1]; simp
          · rw [hq.done c hc, hd _ (hne c hc)]
            simp only [List.map_cons, List.mem_cons]
            constructor
            · rintro (h | h)
              · exact Or.inl h
              · exact Or.inr (Or.inr h)
            · rintro (h | h | h)
              · exact Or.inl h
              · exact (hne c hc h).elim
              · exact Or.inr h
        · intro x hx
          simp only [List.map_cons, List.mem_cons, not_or] at hx
          rw [hq.frame x hx.2, hd x hx.1]
    simp only [reuseSweep]
    by_cases hd : w.done b.id = true
    · have := skip w (fun _ => rfl) (.nil w) (by
        rintro l rfl hen
        have h0 := hen.1
        rw [show w.done l.id = true from hd] at h0
        cases h0) (by cases b <;> first | exact hd | trivial)
      unfold Evals at this ⊢
      simpa only [bind_apply, getDone, hd, if_true] using this
    · simp only [Bool.not_eq_true] at hd
      cases b with
      | leaf l =>
        have hl := evals_leaf (dbg := dbg) (t := t) (I := I) l w
        have hbind : Evals dbg t I (leavesOf (.leaf l :: po))
            (do
              let _ ← l.process dbg t
              let d' ← getDone l.id
              let rest ← reuseSweep dbg t po
              pure (if d' then Block.leaf l :: rest else rest)) w (SweepPost (.leaf l :: po) w) := by
          refine Evals.bind (hl.mono ?_ (fun _ _ _ _ _ h => h)) ?_
          · intro l' hl'
            rw [List.mem_singleton] at hl'
            subst hl'; rw [mem_leavesOf]; simp
          · rintro n ls w1 hls hst ⟨h1, h2, h3, h4, h5⟩
            rcases h5 with rfl | rfl
            · -- did not run
              have hd1 : w1.done l.id = false := by
                cases h : w1.done l.id with
                | false => rfl
                | true =>
                  rcases h4.1 h with h | h
                  · rw [show w.done l.id = false from hd] at h; cases h
                  · cases h
              have hsk := skip w1 (by
                intro x
                by_cases e : x = l.id
                · rw [e, hd1]; exact hd.symm
                · exact h3 x e) hst (by
                intro l' e
                cases e
                exact h2 (by rw [h1]; rfl)) trivial
              unfold Evals at hsk ⊢
              simp only [bind_apply, getDone, hd1, List.nil_append]
              cases hy : reuseSweep dbg t po w1 with
              | ok a w2 => rw [hy] at hsk; simpa using hsk
              | error e w2 => rw [hy] at hsk; simpa using hsk
            · have hd1 : w1.done l.id = true := h4.2 (Or.inr rfl)
              have htk := took w1 [l] h3 hd1 hd (by simp [leavesOf])
              unfold Evals at htk ⊢
              simp only [bind_apply, getDone, hd1, if_true] at htk ⊢
              exact htk
        unfold Evals at hbind ⊢
        simp only [bind_apply, getDone, Block.id, Block.processShallow] at hbind ⊢
        rw [show w.done l.id = false from hd]
        simp only [Bool.false_eq_true, if_false, bind_apply, getDone]
        exact hbind
      | sub i lk kids =>
        have hi : ¬ I i := by simpa [Block.isLeaf, Block.id] using hs _ (by simp : Block.sub i lk kids ∈ _)
        have htk := took { w with done := upd w.done i true } [] (by
          intro x hx
          have : x ≠ i := hx
          simp [upd, this]) (by simp [upd, Block.id]) hd (by simp [leavesOf])
        unfold Evals at htk ⊢
        simp only [bind_apply, getDone, Block.id, Block.processShallow, pure_apply] at htk ⊢
        rw [show w.done i = false from hd]
        simp only [Bool.false_eq_true, if_false, bind_apply, getDone, setDone, pure_apply, upd, if_true] at htk ⊢
        split at htk
        · rename_i a w2 heq
          obtain ⟨ls, g1, g2, g3⟩ := htk
          rw [heq]
          exact ⟨ls, g1, .flag hi g2, by simpa using g3⟩
        · rename_i a w2 heq
          obtain ⟨ls, wm, g1, g2, g3⟩ := htk
          rw [heq]
          exact ⟨ls, wm, g1, .flag hi g2, g3⟩

/-- Post-condition of the sweeps until nothing changes. -/
structure ReusePost (po : List (Block K)) (w : World K) (new : List (Block K)) (ls : List (Leaf K))
    (w' : World K) : Prop where
  run : ls = leavesOf new
  sub : ∀ b ∈ new, b ∈ po
  nodup : (new.map Block.id).Nodup
  fresh : ∀ b ∈ new, w.done b.id = false
  done : ∀ b ∈ po, (w'.done b.id = true ↔ w.done b.id = true ∨ b.id ∈ new.map Block.id)

theorem reuseLoop_aux (po : List (Block K)) (hn : (po.map Block.id).Nodup) (hs : Sorted I po) (n : Nat)
    (w : World K) :
    match reuseLoop dbg t po n w with
    | .ok new w' => ∃ ls, (∀ l ∈ ls, l ∈ leavesOf po) ∧ Steps dbg t I w ls w' ∧ Stuck (leavesOf po) w' ∧
        ReusePost po w new ls w'
    | .error e w' =>
      (∃ ls wm, (∀ l ∈ ls, l ∈ leavesOf po) ∧ Steps dbg t I w ls wm ∧ FailsAt dbg t (leavesOf po) wm e w') ∨
      (∃ new : List (Block K), (∀ b ∈ new, b ∈ po) ∧ (new.map Block.id).Nodup ∧ (∀ b ∈ new, w.done b.id = false) ∧ n ≤ new.length) := by
  induction n generalizing w with
  | zero => exact Or.inr ⟨[], by simp, by simp, by simp, by simp⟩
  | succ n ih =>
    simp only [reuseLoop, bind_apply]
    have h := sweep_evals (dbg := dbg) (t := t) po hn hs w
    unfold Evals at h
    cases hx : reuseSweep dbg t po w with
    | error e w' =>
      rw [hx] at h
      exact Or.inl h
    | ok new w1 =>
      rw [hx] at h
      obtain ⟨ls, h1, h2, h3⟩ := h
      simp only
      by_cases hk : new = []
      · subst hk
        simp only [List.isEmpty_nil, if_true, pure_apply]
        exact ⟨ls, h1, h2, h3.stuck rfl, h3.run, by simp, by simp, by simp, h3.done⟩
      · have hkf : new.isEmpty = false := by cases new <;> simp_all
        simp only [hkf]
        rw [if_neg (by simp)]
        have hlen : 1 ≤ new.length := by cases new <;> simp_all
        have := ih w1
        -- blocks processed later are different from those processed in this sweep
        have hdisj : ∀ b ∈ po, w1.done b.id = false → w.done b.id = false ∧ b.id ∉ new.map Block.id := by
          intro b hb hd
          constructor
          · cases h' : w.done b.id with
            | false => rfl
            | true => rw [(h3.done b hb).2 (Or.inl h')] at hd; cases hd
          · intro h'
            rw [(h3.done b hb).2 (Or.inr h')] at hd; cases hd
        have happ : ∀ new' : List (Block K), (∀ b ∈ new', b ∈ po) → (new'.map Block.id).Nodup →
            (∀ b ∈ new', w1.done b.id = false) → ((new ++ new').map Block.id).Nodup := by
          intro new' k1 k2 k3
          rw [List.map_append, List.nodup_append]
          refine ⟨h3.nodup, k2, ?_⟩
          intro x hx y hy e
          subst e
          obtain ⟨b, hb, rfl⟩ := List.mem_map.1 hy
          exact (hdisj b (k1 b hb) (k3 b hb)).2 hx
        simp only [bind_apply]
        cases hy : reuseLoop dbg t po n w1 with
        | ok new' w' =>
          rw [hy] at this
          obtain ⟨ls', g1, g2, g3, g4⟩ := this
          simp only [pure_apply]
          refine ⟨ls ++ ls', ?_, h2.append g2, g3, ?_, ?_, ?_, ?_, ?_⟩
          · intro l hl
            rcases List.mem_append.1 hl with hl | hl
            · exact h1 l hl
            · exact g1 l hl
          · rw [h3.run, g4.run]; simp [leavesOf]
          · intro b hb
            rcases List.mem_append.1 hb with hb | hb
            · exact h3.sub b hb
            · exact g4.sub b hb
          · exact happ new' g4.sub g4.nodup g4.fresh
          · intro b hb
            rcases List.mem_append.1 hb with hb | hb
            · exact h3.fresh b hb
            · exact (hdisj b (g4.sub b hb) (g4.fresh b hb)).1
          · intro b hb
            rw [g4.done b hb, h3.done b hb, List.map_append, List.mem_append, or_assoc]
        | error e w' =>
          rw [hy] at this
          rcases this with ⟨ls', wm, g1, g2, g3⟩ | ⟨new', g1, g2, g3, g4⟩
          · refine Or.inl ⟨ls ++ ls', wm, ?_, h2.append g2, g3⟩
            intro l hl
            rcases List.mem_append.1 hl with hl | hl
            · exact h1 l hl
            · exact g1 l hl
          · refine Or.inr ⟨new ++ new', ?_, happ new' g1 g2 g3, ?_, ?_⟩
            · intro b hb
              rcases List.mem_append.1 hb with hb | hb
              · exact h3.sub b hb
              · exact g1 b hb
            · intro b hb
              rcases List.mem_append.1 hb with hb | hb
              · exact h3.fresh b hb
              · exact (hdisj b (g1 b hb) (g3 b hb)).1
            · rw [List.length_append]; omega

theorem reuseLoop_completes (po : List (Block K)) (hn : (po.map Block.id).Nodup) (hs : Sorted I po) {n : Nat}
    (hlen : po.length < n) (w : World K) :
    Completes dbg t I (leavesOf po) (reuseLoop dbg t po n) w (fun new ls w' => ReusePost po w new ls w') := by
  have h := reuseLoop_aux (dbg := dbg) (t := t) po hn hs n w
  unfold Completes Evals
  cases hx : reuseLoop dbg t po n w with
  | ok u w' =>
    rw [hx] at h
    exact h
  | error e w' =>
    rw [hx] at h
    rcases h with h | ⟨new, h1, h2, h3, h4⟩
    · exact h
    · exfalso
      have := length_le_of_nodup h2 h1
      omega

/-- The blocks processed followed by the blocks left are the blocks that were not marked processed
beforehand. -/
theorem ReusePost.perm {po new : List (Block K)} {w w' : World K} {ls : List (Leaf K)}
    (hn : (po.map Block.id).Nodup) (h4 : ReusePost po w new ls w') :
    (new ++ po.filter (fun b => !w'.done b.id)).Perm (po.filter (fun b => !w.done b.id)) := by
  have hinj : ∀ b ∈ po, ∀ c ∈ po, b.id = c.id → b = c :=
    fun b hb c hc e => List.inj_on_of_nodup_map hn hb hc e
  have hpo : po.Nodup := List.Nodup.of_map _ hn
  rw [List.perm_ext_iff_of_nodup]
  · intro b
    simp only [List.mem_append, List.mem_filter, Bool.not_eq_true']
    constructor
    · rintro (hb | ⟨hb, hd⟩)
      · exact ⟨h4.sub b hb, h4.fresh b hb⟩
      · refine ⟨hb, ?_⟩
        cases h' : w.done b.id with
        | false => rfl
        | true => rw [(h4.done b hb).2 (Or.inl h')] at hd; cases hd
    · rintro ⟨hb, hd⟩
      cases h' : w'.done b.id with
      | false => exact Or.inr ⟨hb, rfl⟩
      | true =>
        rcases (h4.done b hb).1 h' with h'' | h''
        · rw [hd] at h''; cases h''
        · obtain ⟨c, hc, e⟩ := List.mem_map.1 h''
          rw [← hinj c (h4.sub c hc) b hb e]
          exact Or.inl hc
  · rw [List.nodup_append]
    refine ⟨List.Nodup.of_map _ h4.nodup, hpo.filter _, ?_⟩
    intro b hb c hc e
    subst e
    rw [List.mem_filter] at hc
    have := (h4.done b hc.1).2 (Or.inr (List.mem_map_of_mem hb))
    simp [this] at hc
  · exact hpo.filter _

/-- The whole reuse branch: the blocks that were not marked processed beforehand are evaluated and form
the new order; the check of the debug build succeeds exactly if there were no others. -/
theorem reuseEval_spec (po : List (Block K)) (hn : (po.map Block.id).Nodup) (hs : Sorted I po) (w : World K) :
    match reuseEval dbg t po w with
    | .ok po' w' => (∃ ls, (∀ l ∈ ls, l ∈ leavesOf po) ∧ Steps dbg t I w ls w' ∧ Stuck (leavesOf po) w') ∧
        po'.Perm (po.filter (fun b => !w.done b.id)) ∧ (dbg = true → ∀ b ∈ po, w.done b.id = false)
    | .error e w' =>
      (∃ ls wm, (∀ l ∈ ls, l ∈ leavesOf po) ∧ Steps dbg t I w ls wm ∧ FailsAt dbg t (leavesOf po) wm e w') ∨
      ((∃ ls, (∀ l ∈ ls, l ∈ leavesOf po) ∧ Steps dbg t I w ls w' ∧ Stuck (leavesOf po) w') ∧
        e = .exc .debugVerify ∧ dbg = true ∧ ∃ b ∈ po, w.done b.id = true) := by
  have h := reuseLoop_completes (dbg := dbg) (t := t) po hn hs (Nat.lt_succ_self po.length) w
  unfold Completes Evals at h
  unfold reuseEval
  simp only [bind_apply]
  cases hx : reuseLoop dbg t po (po.length + 1) w with
  | error e w' => rw [hx] at h; exact Or.inl h
  | ok new w' =>
    rw [hx] at h
    obtain ⟨ls, h1, h2, h3, h4⟩ := h
    simp only [get_apply]
    have hperm := h4.perm hn
    have hlen : po.length = (new ++ po.filter (fun b => !w'.done b.id)).length ↔
        ∀ b ∈ po, w.done b.id = false := by
      rw [hperm.length_eq]
      constructor
      · intro h
        have := List.filter_sublist (p := fun b => !w.done b.id) (l := po) |>.eq_of_length h.symm
        intro b hb
        have := (List.filter_eq_self.1 this) b hb
        simpa using this
      · intro h
        congr 1
        rw [List.filter_eq_self.2]
        intro b hb
        simp [h b hb]
    unfold debugVerify
    by_cases hc : (dbg && !(po.length == (new ++ po.filter (fun b => !w'.done b.id)).length)) = true
    · simp only [hc, if_true]
      rw [Bool.and_eq_true, Bool.not_eq_true', beq_eq_false_iff_ne, ne_eq, hlen] at hc
      refine Or.inr ⟨⟨ls, h1, h2, h3⟩, by trivial, hc.1, ?_⟩
      by_contra hno
      refine hc.2 (fun b hb => ?_)
      cases hb' : w.done b.id with
      | false => rfl
      | true => exact (hno ⟨b, hb, hb'⟩).elim
    · simp only [hc]
      rw [if_neg (by simp)]
      refine ⟨⟨ls, h1, h2, h3⟩, hperm, ?_⟩
      intro hdbg
      rw [← hlen]
      by_contra hne
      apply hc
      rw [hdbg]
      simpa using hne

/-! ### The ordering pass of `FastSimulator` -/

/-- Post-condition of one level. -/
structure LevelPost (k : Nat) (ls : List (Leaf K)) (w : World K) (lv : List (Leaf K)) (run : List (Leaf K))
    (w' : World K) : Prop where
  run : run = lv
  sub : ∀ l ∈ lv, l ∈ ls
  full : k ≤ fastCount w ls → lv.length = k
  frame : ∀ x, x ∉ ls.map Leaf.id → w'.done x = w.done x

theorem enabled_iff (l : Leaf K) (w : World K) : (!w.done l.id && l.ready w) = true ↔ Enabled l w := by
  simp only [Bool.and_eq_true, Bool.not_eq_true', Enabled, ready_iff]

theorem fastCount_cons (w : World K) (l : Leaf K) (ls : List (Leaf K)) [Decidable (Enabled l w)] :
    fastCount w (l :: ls) = (if Enabled l w then 1 else 0) + fastCount w ls := by
  unfold fastCount
  by_cases h : Enabled l w
  · have h' := (enabled_iff l w).2 h
    simp only [List.filter_cons, h', if_true, List.length_cons, h]; omega
  · have h' : (!w.done l.id && l.ready w) = false := by
      rw [← Bool.not_eq_true, enabled_iff]; exact h
    simp only [List.filter_cons, h', Bool.false_eq_true, if_false, h, Nat.zero_add]

theorem fastCount_mono {w w' : World K} {ls : List (Leaf K)} (h : ∀ l ∈ ls, Enabled l w → Enabled l w') :
    fastCount w ls ≤ fastCount w' ls := by
  classical
  induction ls with
  | nil => simp [fastCount]
  | cons l ls ih =>
    rw [fastCount_cons, fastCount_cons]
    have := ih (fun l hl => h l (by simp [hl]))
    have h0 := h l (by simp)
    by_cases h1 : Enabled l w
    · simp [h1, h0 h1]; exact this
    · simp only [h1, if_false]; omega

theorem fastLevel_evals (k : Nat) (ls : List (Leaf K)) (hn : (ls.map Leaf.id).Nodup)
    (hI : ∀ l ∈ ls, I l.id) (w : World K) :
    Evals dbg t I ls (fastLevel dbg t k ls) w (LevelPost k ls w) := by
  classical
  induction ls generalizing k w with
  | nil =>
    simp only [fastLevel]
    refine Evals.pure ⟨rfl, by simp, ?_, fun _ _ => rfl⟩
    intro h
    simp only [fastCount, List.filter_nil, List.length_nil] at h
    simp; omega
  | cons l ls ih =>
    simp only [List.map_cons, List.nodup_cons] at hn
    have hIs : ∀ l ∈ ls, I l.id := fun l hl => hI l (by simp [hl])
    simp only [fastLevel]
    by_cases hk : k = 0
    · simp only [hk, if_true]
      exact Evals.pure ⟨rfl, by simp, fun _ => rfl, fun _ _ => rfl⟩
    · simp only [hk, if_false]
      by_cases hen : Enabled l w
      · have hp := evals_leaf (dbg := dbg) (t := t) (I := I) l w
        have hb : Evals dbg t I (l :: ls)
            (do
              let _ ← l.process dbg t
              let d' ← getDone l.id
              if d' then
                let rest ← fastLevel dbg t (k - 1) ls
                pure (l :: rest)
              else pure []) w (LevelPost k (l :: ls) w) := by
          refine Evals.bind (hp.mono (fun l' hl' => by simp at hl'; simp [hl']) (fun _ _ _ _ _ h => h)) ?_
          rintro n r w1 hr hst ⟨h1, h2, h3, h4, h5⟩
          rcases h5 with rfl | rfl
          · exfalso
            refine h2 (by rw [h1]; rfl) ?_
            rw [hst.nil_enabled (hI l (by simp))]; exact hen
          · have hd1 : w1.done l.id = true := h4.2 (Or.inr rfl)
            have hstep := hst.basic (by intro l' hl'; exact hI l' (by simp at hl'; simp [hl']))
            have hrest := Evals.bind (R := fun lv run w' => LevelPost k (l :: ls) w lv ([l] ++ run) w')
              (f := fun rest => (pure (l :: rest) : M K (List (Leaf K))))
              ((ih (k - 1) hn.2 hIs w1).mono (L' := l :: ls) (fun l' hl' => by simp [hl']) (fun _ _ _ _ _ h => h)) (by
                intro lv run w' hrun hst' hq
                refine Evals.pure ⟨?_, ?_, ?_, ?_⟩
                · rw [hq.run]; simp
                · intro l' hl'
                  rcases List.mem_cons.1 hl' with rfl | hl'
                  · simp
                  · simp [hq.sub l' hl']
                · intro hcount
                  rw [fastCount_cons] at hcount
                  simp only [hen, if_true] at hcount
                  have hle : fastCount w ls ≤ fastCount w1 ls := by
                    refine fastCount_mono ?_
                    intro l' hl' he
                    have hne : l'.id ≠ l.id := fun e => hn.1 (e ▸ List.mem_map_of_mem hl')
                    refine ⟨by rw [h3 _ hne]; exact he.1, fun s hs => hstep.mono s (he.2 s hs)⟩
                  have := hq.full (by omega)
                  simp only [List.length_cons, this]; omega
                · intro x hx
                  simp only [List.map_cons, List.mem_cons, not_or] at hx
                  rw [hq.frame x hx.2, h3 x hx.1])
            unfold Evals at hrest ⊢
            simpa only [bind_apply, getDone, hd1, if_true] using hrest
        unfold Evals at hb ⊢
        simp only [bind_apply, getDone, get_apply] at hb ⊢
        have hc : (w.done l.id || !l.ready w) = false := by
          have := (enabled_iff l w).2 hen
          simp only [Bool.and_eq_true, Bool.not_eq_true'] at this
          simp [this.1, this.2]
        simp only [hc]
        simp only [Bool.false_eq_true, if_false, bind_apply, getDone]
        exact hb
      · have := (ih k hn.2 hIs w).mono (L' := l :: ls) (Q' := LevelPost k (l :: ls) w)
          (fun l' hl' => by simp [hl']) (by
            intro lv run w' hrun hst hq
            refine ⟨hq.run, fun l' hl' => by simp [hq.sub l' hl'], ?_, ?_⟩
            · intro hcount
              rw [fastCount_cons] at hcount
              simp only [hen, if_false] at hcount
              exact hq.full (by omega)
            · intro x hx
              simp only [List.map_cons, List.mem_cons, not_or] at hx
              exact hq.frame x hx.2)
        have hc : (w.done l.id || !l.ready w) = true := by
          by_contra h
          apply hen
          rw [← enabled_iff]
          simpa using h
        unfold Evals at this ⊢
        simp only [bind_apply, getDone, get_apply, hc, if_true]
        exact this

theorem fastOrder_aux (po : List (Leaf K)) (hn : (po.map Leaf.id).Nodup) (hI : ∀ l ∈ po, I l.id) (n : Nat)
    (w : World K) :
    match fastOrder dbg t po n w with
    | .ok r w' => Steps dbg t I w r.1.flatten w' ∧ (∀ l ∈ r.1.flatten, l ∈ po) ∧ Stuck po w' ∧
        r.2 = r.1.flatten.length
    | .error e w' =>
      (∃ ls wm, (∀ l ∈ ls, l ∈ po) ∧ Steps dbg t I w ls wm ∧ FailsAt dbg t po wm e w') ∨
      (∃ ls, (∀ l ∈ ls, l ∈ po) ∧ Steps dbg t I w ls w' ∧ n ≤ ls.length) := by
  induction n generalizing w with
  | zero => exact Or.inr ⟨[], by simp, .nil w, by simp⟩
  | succ n ih =>
    simp only [fastOrder, bind_apply, get_apply]
    by_cases hk : fastCount w po = 0
    · simp only [hk, if_true, pure_apply, List.flatten_nil]
      refine ⟨.nil w, by simp, ?_, rfl⟩
      intro l hl hen
      unfold fastCount at hk
      rw [List.length_eq_zero_iff, List.filter_eq_nil_iff] at hk
      exact hk l hl ((enabled_iff l w).2 hen)
    · simp only [hk, if_false, bind_apply]
      have h := fastLevel_evals (dbg := dbg) (t := t) (fastCount w po) po hn hI w
      unfold Evals at h
      cases hx : fastLevel dbg t (fastCount w po) po w with
      | error e w' => rw [hx] at h; exact Or.inl h
      | ok lv w1 =>
        rw [hx] at h
        obtain ⟨ls, h1, h2, h3⟩ := h
        have hfull := h3.full (Nat.le_refl _)
        have hrun := h3.run
        subst hrun
        simp only [hfull, ne_eq, not_true_eq_false, if_false, bind_apply]
        have := ih w1
        cases hy : fastOrder dbg t po n w1 with
        | ok r w' =>
          rw [hy] at this
          obtain ⟨g1, g2, g3, g4⟩ := this
          simp only [pure_apply, List.flatten_cons]
          refine ⟨h2.append g1, ?_, g3, ?_⟩
          · intro l hl
            rcases List.mem_append.1 hl with hl | hl
            · exact h1 l hl
            · exact g2 l hl
          · rw [List.length_append, hfull, g4]
        | error e w' =>
          rw [hy] at this
          rcases this with ⟨ls', wm, g1, g2, g3⟩ | ⟨ls', g1, g2, g3⟩
          · refine Or.inl ⟨ls ++ ls', wm, ?_, h2.append g2, g3⟩
            intro l hl
            rcases List.mem_append.1 hl with hl | hl
            · exact h1 l hl
            · exact g1 l hl
          · refine Or.inr ⟨ls ++ ls', ?_, h2.append g2, ?_⟩
            · intro l hl
              rcases List.mem_append.1 hl with hl | hl
              · exact h1 l hl
              · exact g1 l hl
            · rw [List.length_append, hfull]; omega

/-- The ordering pass completes; the levels list the leaves that ran, in that order. -/
theorem fastOrder_completes (po : List (Leaf K)) (hn : (po.map Leaf.id).Nodup) (hI : ∀ l ∈ po, I l.id) {n : Nat}
    (hlen : po.length < n) (w : World K) :
    Completes dbg t I po (fastOrder dbg t po n) w
      (fun r ls _ => r.1.flatten = ls ∧ r.2 = ls.length) := by
  have h := fastOrder_aux (dbg := dbg) (t := t) po hn hI n w
  unfold Completes Evals
  cases hx : fastOrder dbg t po n w with
  | ok r w' =>
    rw [hx] at h
    obtain ⟨h1, h2, h3, h4⟩ := h
    exact ⟨_, h2, h1, h3, rfl, h4⟩
  | error e w' =>
    rw [hx] at h
    rcases h with h | ⟨ls, h1, h2, h3⟩
    · exact h
    · exfalso
      have hb := h2.basic (fun l hl => hI l (h1 l hl))
      have := length_le_of_nodup hb.nodup h1
      omega

/-- Processing a leaf that is enabled. -/
theorem process_enabled {l : Leaf K} {w : World K} (h : Enabled l w) :
    l.process dbg t w = match l.act dbg t w with
      | .ok _ w1 => .ok 1 { w1 with done := upd w1.done l.id true }
      | .error e w1 => .error e w1 := by
  unfold Leaf.process
  simp only [bind_apply, getDone, get_apply, h.1, (ready_iff l w).2 h.2, Bool.not_true, Bool.or_false, Bool.false_eq_true, if_false]
  cases l.act dbg t w <;> rfl

/-- If the inner loop of the ordering pass throws, the leaves in the list are those that ran. -/
theorem levelFound_spec (k : Nat) (ls : List (Leaf K)) (w : World K) {e : Err} {w' : World K} (h : fastLevel dbg t k ls w = .error e w') :
    ∃ wm, (∀ l ∈ levelFound dbg t k ls w, l ∈ ls) ∧ Steps dbg t I w (levelFound dbg t k ls w) wm ∧ FailsAt dbg t ls wm e w' := by
  induction ls generalizing k w with
  | nil => cases h
  | cons l ls ih =>
    simp only [fastLevel] at h
    simp only [levelFound]
    by_cases hk : k = 0
    · simp only [hk, if_true] at h; cases h
    simp only [hk, if_false] at h ⊢
    simp only [bind_apply, getDone, get_apply] at h
    by_cases hen : Enabled l w
    · have hc : (w.done l.id || !l.ready w) = false := by
        have := (enabled_iff l w).2 hen
        simp only [Bool.and_eq_true, Bool.not_eq_true'] at this
        simp [this.1, this.2]
      simp only [hc, Bool.false_eq_true, if_false, bind_apply, getDone, process_enabled hen] at h ⊢
      cases hx : l.act dbg t w with
      | error e1 w1 =>
        rw [hx] at h
        simp only [EStateM.Result.error.injEq] at h
        obtain ⟨rfl, rfl⟩ := h
        exact ⟨w, by simp, .nil w, l, by simp, hen, hx⟩
      | ok _ w1 =>
        rw [hx] at h
        have hd : (upd w1.done l.id true) l.id = true := by simp [upd]
        simp only [hd, if_true, bind_apply] at h ⊢
        cases hy : fastLevel dbg t (k - 1) ls { w1 with done := upd w1.done l.id true } with
        | ok r w2 => rw [hy] at h; cases h
        | error e2 w2 =>
          rw [hy] at h
          simp only [EStateM.Result.error.injEq] at h
          obtain ⟨rfl, rfl⟩ := h
          obtain ⟨wm, g1, g2, l', g3, g4⟩ := ih (k - 1) _ hy
          refine ⟨wm, ?_, .act hen hx g2, l', by simp [g3], g4⟩
          intro l2 hl2
          rcases List.mem_cons.1 hl2 with rfl | hl2
          · simp
          · simp [g1 l2 hl2]
    · have hc : (w.done l.id || !l.ready w) = true := by
        by_contra h
        apply hen
        rw [← enabled_iff]
        simpa using h
      simp only [hc, if_true] at h ⊢
      obtain ⟨wm, g1, g2, l', g3, g4⟩ := ih k w h
      exact ⟨wm, fun l2 h2 => by simp [g1 l2 h2], g2, l', by simp [g3], g4⟩

/-- If the ordering pass throws, the leaves in the levels are those that ran. -/
theorem fastFound_spec (po : List (Leaf K)) (hn : (po.map Leaf.id).Nodup) (hI : ∀ l ∈ po, I l.id) (n : Nat) (w : World K) {e : Err} {w' : World K}
    (h : fastOrder dbg t po n w = .error e w') :
    ∃ wm, (∀ l ∈ (fastFound dbg t po n w).flatten, l ∈ po) ∧ Steps dbg t I w (fastFound dbg t po n w).flatten wm ∧
      (FailsAt dbg t po wm e w' ∨ (wm = w' ∧ n ≤ (fastFound dbg t po n w).flatten.length)) := by
  induction n generalizing w with
  | zero => cases h; exact ⟨_, by simp [fastFound], .nil _, .inr ⟨rfl, by simp⟩⟩
  | succ n ih =>
    simp only [fastOrder, bind_apply, get_apply] at h
    simp only [fastFound]
    by_cases hk : fastCount w po = 0
    · simp only [hk, if_true] at h; cases h
    · simp only [hk, if_false, bind_apply] at h ⊢
      have hl := fastLevel_evals (dbg := dbg) (t := t) (fastCount w po) po hn hI w
      unfold Evals at hl
      cases hx : fastLevel dbg t (fastCount w po) po w with
      | error e1 w1 =>
        rw [hx] at h
        simp only [EStateM.Result.error.injEq] at h
        obtain ⟨rfl, rfl⟩ := h
        obtain ⟨wm, g1, g2, g3⟩ := levelFound_spec (I := I) _ _ _ hx
        simp only [List.flatten_cons, List.flatten_nil, List.append_nil]
        exact ⟨wm, g1, g2, .inl g3⟩
      | ok lv w1 =>
        rw [hx] at h hl
        obtain ⟨ls, h1, h2, h3⟩ := hl
        have hfull := h3.full (Nat.le_refl _)
        have hrun := h3.run
        subst hrun
        simp only [hfull, ne_eq, not_true_eq_false, if_false, bind_apply] at h ⊢
        cases hy : fastOrder dbg t po n w1 with
        | ok r w2 => rw [hy] at h; cases h
        | error e2 w2 =>
          rw [hy] at h
          simp only [EStateM.Result.error.injEq] at h
          obtain ⟨rfl, rfl⟩ := h
          obtain ⟨wm, g1, g2, g3⟩ := ih w1 hy
          refine ⟨wm, ?_, ?_, ?_⟩
          · intro l hl
            rw [List.flatten_cons, List.mem_append] at hl
            exact hl.elim (h1 l) (g1 l)
          · rw [List.flatten_cons]; exact h2.append g2
          · refine g3.imp id (fun q => ⟨q.1, ?_⟩)
            rw [List.flatten_cons, List.length_append, hfull]
            have := q.2
            omega

/-- If the ordering pass throws, it does so in an activation function. -/
theorem fastFound_fails (po : List (Leaf K)) (hn : (po.map Leaf.id).Nodup) (hI : ∀ l ∈ po, I l.id) {n : Nat} (hlen : po.length < n) (w : World K) {e : Err} {w' : World K}
    (h : fastOrder dbg t po n w = .error e w') :
    ∃ wm, (∀ l ∈ (fastFound dbg t po n w).flatten, l ∈ po) ∧ Steps dbg t I w (fastFound dbg t po n w).flatten wm ∧ FailsAt dbg t po wm e w' := by
  obtain ⟨wm, g1, g2, g3 | ⟨_, g3⟩⟩ := fastFound_spec (I := I) po hn hI n w h
  · exact ⟨wm, g1, g2, g3⟩
  · have hb := g2.basic (fun l hl => hI l (g1 l hl))
    have := length_le_of_nodup hb.nodup g1
    omega

end Pooya
