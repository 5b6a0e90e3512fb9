import Verif.Model.Name
import Verif.Model.Report
import Verif.Props.C13
import Verif.Props.C17
import Verif.Props.C21
import Verif.Props.C23
import Mathlib.Order.WellFounded
import Mathlib.Data.Fintype.EquivFin
import Mathlib.Data.Set.Finite.List

/-! # C73 — the list of unprocessed blocks names the cause -/

namespace Pooya.C73

set_option linter.unusedSectionVars false

/-! ## The text -/

section

/-- Texts of complete lines determine the lines. -/
private theorem lines_inj {l1 l2 : Str} (h1 : (10 : UInt8) ∉ l1) (h2 : (10 : UInt8) ∉ l2) {r1 r2 : Str}
    (h : l1 ++ 10 :: r1 = l2 ++ 10 :: r2) : l1 = l2 ∧ r1 = r2 := by
  induction l1 generalizing l2 with
  | nil =>
    cases l2 with
    | nil => exact ⟨rfl, by simpa using h⟩
    | cons a l2 =>
      simp only [List.nil_append, List.cons_append, List.cons.injEq] at h
      exact absurd h.1 (by intro e; exact h2 (by simp [← e]))
  | cons a l1 ih =>
    cases l2 with
    | nil =>
      simp only [List.nil_append, List.cons_append, List.cons.injEq] at h
      exact absurd h.1 (by intro e; exact h1 (by simp [e]))
    | cons b l2 =>
      simp only [List.cons_append, List.cons.injEq] at h
      obtain ⟨e1, e2⟩ := ih (fun x => h1 (by simp [x])) (fun x => h2 (by simp [x])) h.2
      exact ⟨by rw [h.1, e1], e2⟩

/-- One line for a signal. -/
private def sigLine (s : Str) : Str := [32, 32, 45, 32] ++ s ++ [10]

/-- A text that does not begin with a blank, as what follows the signals of a block. -/
private def Unblank (r : Str) : Prop := ∀ x, r ≠ 32 :: x

private theorem sigs_inj {a b : List Str} (ha : ∀ s ∈ a, (10 : UInt8) ∉ s) (hb : ∀ s ∈ b, (10 : UInt8) ∉ s) {r1 r2 : Str}
    (h1 : Unblank r1) (h2 : Unblank r2) (h : a.flatMap sigLine ++ r1 = b.flatMap sigLine ++ r2) : a = b ∧ r1 = r2 := by
  induction a generalizing b with
  | nil =>
    cases b with
    | nil => exact ⟨rfl, by simpa using h⟩
    | cons x b => exact (h1 _ (by simpa [sigLine] using h)).elim
  | cons x a ih =>
    cases b with
    | nil => exact (h2 _ (by simpa [sigLine] using h.symm)).elim
    | cons y b =>
      simp only [List.flatMap_cons, sigLine, List.append_assoc, List.cons_append, List.nil_append, List.cons.injEq, true_and] at h
      obtain ⟨e1, e2⟩ := lines_inj (ha x (by simp)) (hb y (by simp)) h
      obtain ⟨e3, e4⟩ := ih (fun s hs => ha s (by simp [hs])) (fun s hs => hb s (by simp [hs])) e2
      exact ⟨by rw [e1, e3], e4⟩

private theorem unblank (es : List (Str × List Str)) : Unblank (es.flatMap entryText) := by
  intro x h
  cases es with
  | nil => cases h
  | cons e es =>
    simp only [List.flatMap_cons, entryText, List.append_assoc, List.cons_append, List.cons.injEq] at h
    exact absurd h.1 (by decide)

private theorem entries_inj {a b : List (Str × List Str)}
    (ha : ∀ e ∈ a, (10 : UInt8) ∉ e.1 ∧ ∀ s ∈ e.2, (10 : UInt8) ∉ s)
    (hb : ∀ e ∈ b, (10 : UInt8) ∉ e.1 ∧ ∀ s ∈ e.2, (10 : UInt8) ∉ s)
    (h : a.flatMap entryText = b.flatMap entryText) : a = b := by
  induction a generalizing b with
  | nil =>
    cases b with
    | nil => rfl
    | cons e b => simp [entryText] at h
  | cons x a ih =>
    cases b with
    | nil => simp [entryText] at h
    | cons y b =>
      simp only [List.flatMap_cons, entryText, List.append_assoc, List.cons_append, List.nil_append, List.cons.injEq, true_and] at h
      obtain ⟨e1, e2⟩ := lines_inj (ha x (by simp)).1 (hb y (by simp)).1 h
      obtain ⟨e3, e4⟩ := sigs_inj (ha x (by simp)).2 (hb y (by simp)).2 (unblank a) (unblank b)
        (by
          have e : sigLine = fun s => 32 :: 32 :: 45 :: 32 :: (s ++ [10]) := by funext s; simp [sigLine]
          rw [e]; exact e2)
      rw [ih (fun e he => ha e (by simp [he])) (fun e he => hb e (by simp [he])) e4, Prod.ext e1 e3]

/-- The list can be read back from the text, as names of blocks and signals have no line breaks: different lists are printed differently. -/
theorem C73_readable {a b : List (Str × List Str)}
    (ha : ∀ e ∈ a, (10 : UInt8) ∉ e.1 ∧ ∀ s ∈ e.2, (10 : UInt8) ∉ s)
    (hb : ∀ e ∈ b, (10 : UInt8) ∉ e.1 ∧ ∀ s ∈ e.2, (10 : UInt8) ∉ s)
    (h : reportText a = reportText b) : a = b := by
  unfold reportText at h
  cases a with
  | nil =>
    cases b with
    | nil => rfl
    | cons y b => simp [heading] at h
  | cons x a =>
    cases b with
    | nil => simp [heading] at h
    | cons y b =>
      simp only [List.isEmpty_cons, Bool.false_eq_true, if_false] at h
      exact entries_inj ha hb (List.append_cancel_left h)

end

variable {K : Type} [Arith K]

/-- So if different blocks have different names, and different signals too, the text determines the blocks listed and the signals listed for each. -/
theorem C73_determined (blk : BlkId → Str) (sig : SigId → Str) (hb : ∀ i, (10 : UInt8) ∉ blk i) (hs : ∀ s, (10 : UInt8) ∉ sig s)
    (ib : Function.Injective blk) (is : Function.Injective sig) (b b' : Block K) (w w' : World K)
    (h : report blk sig b w = report blk sig b' w') : entries b w = entries b' w' := by
  have hc : ∀ es : List (BlkId × List SigId), ∀ e ∈ es.map (fun e => (blk e.1, e.2.map sig)),
      (10 : UInt8) ∉ e.1 ∧ ∀ s ∈ e.2, (10 : UInt8) ∉ s := by
    intro es e he
    obtain ⟨e0, _, rfl⟩ := List.mem_map.1 he
    refine ⟨hb _, fun s hs' => ?_⟩
    obtain ⟨s0, _, rfl⟩ := List.mem_map.1 hs'
    exact hs _
  refine List.map_injective_iff.2 ?_ (C73_readable (hc _) (hc _) h)
  intro e1 e2 e
  simp only [Prod.mk.injEq] at e
  exact Prod.ext (ib e.1) (List.map_injective_iff.2 is e.2)

/-! ## When it is printed -/

/-- `process_model` does what it does without the list, which is printed before `post_step`; the list is that of the state right after the
evaluation, which itself starts in a state as assumed below.  Release builds and `FastSimulator` print nothing. -/
theorem C73_printed (cfg : Config K) (blk : BlkId → Str) (sig : SigId → Str) (t : K) (pre post : Bool) (m : Machine K) :
    processModel cfg t pre post m =
      (do
        let _ ← processPrint cfg blk sig t pre
        if post then inW (cfg.model.postStep cfg.dbg t) else pure () : MM K Unit) m ∧
    ∀ text m', processPrint cfg blk sig t pre m = .ok text m' →
      (∃ m0, (Mid cfg m → Mid cfg m0) ∧ evalModel cfg t m0 = .ok () m') ∧
      text = if cfg.dbg = true ∧ cfg.strategy ≠ .fast then report blk sig cfg.model m'.w else [] := by
  constructor
  · unfold processModel processPrint
    simp only [bind_apply]
    cases inW (callInputs cfg t) m with
    | error e m1 => rfl
    | ok u m1 =>
      cases pre with
      | false =>
        simp only [Bool.false_eq_true, if_false, bind_apply]
        cases evalModel cfg t m1 with
        | error e m3 => rfl
        | ok u m3 => cases cfg.strategy <;> rfl
      | true =>
        simp only [if_true, bind_apply]
        cases inW (cfg.model.preStep cfg.dbg t) m1 with
        | error e m2 => rfl
        | ok u m2 =>
          simp only
          cases evalModel cfg t m2 with
          | error e m3 => rfl
          | ok u m3 => cases cfg.strategy <;> rfl
  · intro text m' h
    unfold processPrint at h
    obtain ⟨_, m1, h1, h⟩ := (bind_ok _ _ _ _ _).1 h
    have k1 := keep_inW (done_inputs cfg t) m
    rw [h1] at k1
    obtain ⟨m2, hk, h⟩ : ∃ m2, KeepOrder m m2 ∧ (evalModel cfg t >>= fun _ => get >>= fun m => match cfg.strategy with
            | .fast => pure []
            | _ => pure (if cfg.dbg then report blk sig cfg.model m.w else []) : MM K Str) m2 = .ok text m' := by
      cases pre with
      | false => exact ⟨m1, k1, h⟩
      | true =>
        rw [if_pos rfl] at h
        obtain ⟨_, m2, h2, h⟩ := (bind_ok _ _ _ _ _).1 h
        have := keep_inW (done_pre cfg.dbg t cfg.model) m1
        rw [h2] at this
        exact ⟨m2, PreO.trans k1 this, h⟩
    obtain ⟨_, m3, h3, h⟩ := (bind_ok _ _ _ _ _).1 h
    obtain ⟨_, m4, h4, h⟩ := (bind_ok _ _ _ _ _).1 h
    cases h4
    have h5 : text = (if cfg.dbg = true ∧ cfg.strategy ≠ .fast then report blk sig cfg.model m3.w else []) ∧ m' = m3 := by
      cases hs : cfg.strategy <;> rw [hs] at h <;> cases hd : cfg.dbg <;> rw [hd] at h <;> cases h <;> simp
    obtain ⟨h5, rfl⟩ := h5
    exact ⟨⟨m2, fun hm => .other m2 hm hk.1 hk.2.1 hk.2.2, h3⟩, h5⟩

/-! ## What is listed -/

mutual
private theorem levels_all (lv : Nat) (b : Block K) : (C13.levels lv b).map Prod.fst = b.all := by
  cases b with
  | leaf l => rfl
  | sub i ls kids => simp only [C13.levels, List.map_cons, Block.all, levelsL_all (lv + 1) kids]
private theorem levelsL_all (lv : Nat) (bs : List (Block K)) : (C13.levelsL lv bs).map Prod.fst = allL bs := by
  cases bs with
  | nil => rfl
  | cons b bs => simp only [C13.levelsL, List.map_append, allL, levels_all lv b, levelsL_all lv bs]
end

/-- The hierarchy is not deeper than `visit` goes. -/
def Shallow (b : Block K) : Prop := ∀ p ∈ C13.levels 0 b, p.2 ≤ 4294967295

private theorem unprocessed_eq (b : Block K) (hd : Shallow b) (w : World K) : unprocessed b w = b.all.filter (fun c => !w.done c.id) := by
  have key : ∀ (l : List (Block K × Nat)) (acc : List (Block K)),
      C13.callUntil (fun c _ (us : List (Block K)) => (true, if !w.done c.id then us ++ [c] else us)) l acc =
        (true, acc ++ (l.map Prod.fst).filter (fun c => !w.done c.id)) := by
    intro l
    induction l with
    | nil => intro acc; simp [C13.callUntil]
    | cons p l ih =>
      intro acc
      obtain ⟨x, lv⟩ := p
      simp only [C13.callUntil, ih, List.map_cons, List.filter_cons]
      cases w.done x.id <;> simp
  unfold unprocessed
  rw [C13.C13_visit, key]
  have : (C13.levels 0 b).filter (fun p => p.2 ≤ 4294967295) = C13.levels 0 b := by
    rw [List.filter_eq_self]; intro p hp; simpa using hd p hp
  rw [this, levels_all]
  simp

private theorem mem_entries {b : Block K} (hd : Shallow b) {w : World K} {i : BlkId} {ss : List SigId} :
    (i, ss) ∈ entries b w ↔ ∃ c ∈ b.all, w.done c.id = false ∧ c.id = i ∧ missing c w = ss := by
  unfold entries
  rw [unprocessed_eq b hd w]
  simp only [List.mem_map, List.mem_filter, Prod.mk.injEq, Bool.not_eq_true']
  constructor
  · rintro ⟨c, ⟨h1, h2⟩, h3, h4⟩; exact ⟨c, h1, h2, h3, h4⟩
  · rintro ⟨c, h1, h2, h3, h4⟩; exact ⟨c, ⟨h1, h2⟩, h3, h4⟩

/-- `l` lacks `s`: it requires the signal, which has no value. -/
def Lacks (w : World K) (l : Leaf K) (s : SigId) : Prop := l.Requires s ∧ (w.sig s).assigned = false

private theorem mem_missing {l : Leaf K} {w : World K} {s : SigId} : s ∈ missing (.leaf l) w ↔ Lacks w l s := by
  simp only [missing, Block.links, List.mem_map, List.mem_filter, Lacks, Leaf.Requires]
  constructor
  · rintro ⟨⟨x, f⟩, ⟨h1, h2⟩, rfl⟩
    simp only [Bool.not_or, Bool.not_not, Bool.and_eq_true, Bool.not_eq_true'] at h2
    exact ⟨⟨f, h1, h2.1⟩, h2.2⟩
  · rintro ⟨⟨f, h1, h2⟩, h3⟩
    exact ⟨(s, f), ⟨h1, by simp [h2, h3]⟩, rfl⟩

private theorem same_id {b : Block K} (hp : b.Proper) {c d : Block K} (hc : c ∈ b.all) (hd : d ∈ b.all) (e : c.id = d.id) : c = d :=
  List.inj_on_of_nodup_map hp hc hd e

/-- The leaves that are listed are those that have not been processed. -/
private theorem leaf_listed {b : Block K} (hp : b.Proper) (hd : Shallow b) {w : World K} {l : Leaf K} (hl : l ∈ b.leaves) (ss : List SigId) :
    (l.id, ss) ∈ entries b w ↔ w.done l.id = false ∧ missing (.leaf l) w = ss := by
  rw [mem_entries hd]
  constructor
  · rintro ⟨c, h1, h2, h3, h4⟩
    have : c = .leaf l := same_id hp h1 ((leaf_mem_all _ l).1 hl) h3
    subst this
    exact ⟨h2, h4⟩
  · rintro ⟨h1, h2⟩
    exact ⟨.leaf l, (leaf_mem_all _ l).1 hl, h1, rfl, h2⟩

private theorem ran_required {dbg : Bool} {t : K} {I : BlkId → Prop} {w w' : World K} {ls : List (Leaf K)} (h : Steps dbg t I w ls w')
    (hI : ∀ l ∈ ls, I l.id) {l : Leaf K} (hl : l ∈ ls) {s : SigId} (hs : l.Requires s) : (w'.sig s).assigned = true := by
  induction h with
  | nil w => cases hl
  | @act l0 w w1 w' ls hen hact hrest ih =>
    rcases List.mem_cons.1 hl with rfl | hl
    · have h1 : (w1.sig s).assigned = true := (act_within hact).mono s (hen.2 s hs)
      exact (hrest.basic (fun l hl => hI l (by simp [hl]))).mono s h1
    · exact ih (fun l hl => hI l (by simp [hl])) hl
  | flag _ _ ih => exact ih hI hl

/-- A leaf (other than `BusBlockBuilder`s, which are never listed) is listed exactly if it lacks a signal; below it are the signals it lacks. -/
theorem C73_leaves (cfg : Config K) (hs : cfg.strategy ≠ .fast) (hp : cfg.model.Proper) (hd : Shallow cfg.model) {m m' : Machine K}
    (h : Mid cfg m) (t : K) (he : evalModel cfg t m = .ok () m') (l : Leaf K) (hl : l ∈ cfg.model.leaves) :
    ((∃ ss, (l.id, ss) ∈ entries cfg.model m'.w) ↔ l.kind ≠ .builder ∧ ∃ s, Lacks m'.w l s) ∧
    ∀ ss, (l.id, ss) ∈ entries cfg.model m'.w → ss ≠ [] ∧ ∀ s, s ∈ ss ↔ Lacks m'.w l s := by
  have hsp := eval_spec cfg hs hp (fun _ => mid_inv cfg hp h) t
  rw [he] at hsp
  obtain ⟨w1, ls, h1⟩ := hsp
  have hI : ∀ l ∈ cfg.model.leaves, cfg.model.leafId l.id := fun l hl => List.mem_map_of_mem hl
  have hb := h1.steps.basic (fun l hl => hI l (h1.sub l hl))
  have hmax := C17.C17_maximal cfg hs hp h t he l hl
  have hk : w1.done l.id = true ↔ l.kind = .builder := by
    have := h1.marked.done _ ((leaf_mem_all _ l).1 hl)
    simp only [Block.id, Block.isBuilder] at this
    rw [this]
    cases l.kind <;> simp
  have hrun : ∀ l' ∈ ls, ∀ s, l'.Requires s → (m'.w.sig s).assigned = true := by
    intro l' hl' s hsr
    exact ran_required h1.steps (fun l hl => hI l (h1.sub l hl)) hl' hsr
  refine ⟨⟨?_, ?_⟩, ?_⟩
  · rintro ⟨ss, hss⟩
    rw [leaf_listed hp hd hl] at hss
    obtain ⟨s, f, h2, h3, h4⟩ := hmax hss.1
    refine ⟨fun e => ?_, s, ⟨f, h2, h3⟩, h4⟩
    rw [(hb.done _ (hI l hl)).2 (Or.inl (hk.2 e))] at hss
    cases hss.1
  · rintro ⟨hnb, s, h2, h3⟩
    refine ⟨_, (leaf_listed hp hd hl _).2 ⟨?_, rfl⟩⟩
    cases hdn : m'.w.done l.id with
    | false => rfl
    | true =>
      rcases (hb.done _ (hI l hl)).1 hdn with h4 | h4
      · exact (hnb (hk.1 h4)).elim
      · obtain ⟨l2, hl2, e⟩ := List.mem_map.1 h4
        have : l2 = l := List.inj_on_of_nodup_map hp.leafNodup (h1.sub l2 hl2) hl e
        rw [hrun l2 hl2 s (this ▸ h2)] at h3
        cases h3
  · intro ss hss
    rw [leaf_listed hp hd hl] at hss
    obtain ⟨s, f, h2, h3, h4⟩ := hmax hss.1
    have hm := fun s => mem_missing (l := l) (w := m'.w) (s := s)
    rw [hss.2] at hm
    exact ⟨List.ne_nil_of_mem ((hm s).2 ⟨⟨f, h2, h3⟩, h4⟩), hm⟩

private theorem process_keeps {dbg : Bool} {t : K} {l : Leaf K} {w w' : World K} {n : Nat} (h : l.process dbg t w = .ok n w') (i : BlkId)
    (hi : w.done i = true) : w'.done i = true := by
  unfold Leaf.process at h
  obtain ⟨d, w1, h1, h⟩ := (bind_ok _ _ _ _ _).1 h
  obtain ⟨w2, w3, h2, h⟩ := (bind_ok _ _ _ _ _).1 h
  cases h1; cases h2
  split at h
  · cases h; exact hi
  · obtain ⟨_, w4, h3, h⟩ := (bind_ok _ _ _ _ _).1 h
    obtain ⟨_, w5, h4, h⟩ := (bind_ok _ _ _ _ _).1 h
    cases h4; cases h
    have := (act_within h3).done
    simp only [upd, this]
    split
    · rfl
    · exact hi

private theorem shallow_keeps {dbg : Bool} {t : K} {b : Block K} {w w' : World K} {n : Nat} (h : b.processShallow dbg t w = .ok n w') (i : BlkId)
    (hi : w.done i = true) : w'.done i = true := by
  cases b with
  | leaf l => exact process_keeps h i hi
  | sub j ls kids =>
    unfold Block.processShallow at h
    obtain ⟨_, w5, h4, h⟩ := (bind_ok _ _ _ _ _).1 h
    cases h4; cases h
    simp only [upd]
    split
    · rfl
    · exact hi

/-- A sweep over the remembered order leaves flags that are set, and sets those of all submodels. -/
private theorem sweep_subs {dbg : Bool} {t : K} (po : List (Block K)) {w w' : World K} {new : List (Block K)}
    (h : reuseSweep dbg t po w = .ok new w') :
    (∀ i, w.done i = true → w'.done i = true) ∧ ∀ i ls kids, Block.sub i ls kids ∈ po → w'.done i = true := by
  induction po generalizing w new with
  | nil => cases h; exact ⟨fun _ h => h, fun _ _ _ h => by cases h⟩
  | cons b bs ih =>
    unfold reuseSweep at h
    obtain ⟨d, w1, h1, h⟩ := (bind_ok _ _ _ _ _).1 h
    cases h1
    split at h
    · rename_i hd
      obtain ⟨k1, k2⟩ := ih h
      refine ⟨k1, fun i ls kids hm => ?_⟩
      rcases List.mem_cons.1 hm with rfl | hm
      · exact k1 _ hd
      · exact k2 i ls kids hm
    · obtain ⟨n, w2, h2, h⟩ := (bind_ok _ _ _ _ _).1 h
      obtain ⟨d', w3, h3, h⟩ := (bind_ok _ _ _ _ _).1 h
      cases h3
      obtain ⟨rest, w4, h4, h⟩ := (bind_ok _ _ _ _ _).1 h
      cases h
      obtain ⟨k1, k2⟩ := ih h4
      refine ⟨fun i hi => k1 i (shallow_keeps h2 i hi), fun i ls kids hm => ?_⟩
      rcases List.mem_cons.1 hm with rfl | hm
      · refine k1 i ?_
        unfold Block.processShallow at h2
        obtain ⟨_, w5, h5, h6⟩ := (bind_ok _ _ _ _ _).1 h2
        cases h5; cases h6
        simp [upd]
      · exact k2 i ls kids hm

private theorem loop_subs {dbg : Bool} {t : K} (po : List (Block K)) (n : Nat) {w w' : World K} {new : List (Block K)}
    (h : reuseLoop dbg t po n w = .ok new w') : ∀ i ls kids, Block.sub i ls kids ∈ po → w'.done i = true := by
  induction n generalizing w new with
  | zero => cases h
  | succ n ih =>
    unfold reuseLoop at h
    obtain ⟨new1, w1, h1, h⟩ := (bind_ok _ _ _ _ _).1 h
    split at h
    · cases h; exact (sweep_subs po h1).2
    · obtain ⟨rest, w2, h2, h⟩ := (bind_ok _ _ _ _ _).1 h
      cases h
      exact ih h2

/-- After an evaluation with `reuse_order` all submodels are marked processed. -/
private theorem reuse_subs (cfg : Config K) (hs : cfg.strategy = .reuse) (hp : cfg.model.Proper) {m m' : Machine K}
    (h : Mid cfg m) (t : K) (he : evalModel cfg t m = .ok () m') (i : BlkId) (ls : List (SigId × Flags)) (kids : List (Block K))
    (hb : Block.sub i ls kids ∈ cfg.model.all) : m'.w.done i = true := by
  have hi := mid_inv cfg hp h
  unfold evalModel at he
  rw [hs] at he
  obtain ⟨_, m1, h1, he⟩ := (bind_ok _ _ _ _ _).1 he
  obtain ⟨s, m2, h2, he⟩ := (bind_ok _ _ _ _ _).1 he
  cases h2
  have hpo1 : m1.s = m.s := by
    unfold inW at h1
    split at h1 <;> cases h1
    rfl
  rw [hpo1] at he
  cases hpo : m.s.po with
  | none => rw [hpo] at he; cases he
  | some po =>
    rw [hpo] at he
    obtain ⟨po', m3, h3, he⟩ := (bind_ok _ _ _ _ _).1 he
    cases he
    unfold inW at h3
    split at h3
    · rename_i a w hx
      cases h3
      unfold reuseEval at hx
      obtain ⟨new, w4, h4, hx⟩ := (bind_ok _ _ _ _ _).1 hx
      obtain ⟨_, w5, h5, hx⟩ := (bind_ok _ _ _ _ _).1 hx
      cases h5
      obtain ⟨_, w6, h6, hx⟩ := (bind_ok _ _ _ _ _).1 hx
      cases hx
      have : w = w4 := by
        unfold debugVerify at h6
        split at h6 <;> cases h6
        rfl
      rw [this]
      exact loop_subs po _ h4 i ls kids (hi.poAll po hpo _ hb rfl)
    · cases h3

/-- Submodels: without `reuse_order` a submodel is listed exactly if a leaf in it is; with `reuse_order` none is. -/
theorem C73_submodels (cfg : Config K) (hs : cfg.strategy ≠ .fast) (hp : cfg.model.Proper) (hd : Shallow cfg.model) {m m' : Machine K}
    (h : Mid cfg m) (t : K) (he : evalModel cfg t m = .ok () m') (i : BlkId) (ls : List (SigId × Flags)) (kids : List (Block K))
    (hb : Block.sub i ls kids ∈ cfg.model.all) :
    (∃ ss, (i, ss) ∈ entries cfg.model m'.w) ↔
      cfg.strategy = .plain ∧ ∃ l ∈ (Block.sub i ls kids).leaves, ∃ ss, (l.id, ss) ∈ entries cfg.model m'.w := by
  have hin : ∀ l ∈ (Block.sub i ls kids).leaves, l ∈ cfg.model.leaves := fun l hl => leaves_sub_leaves hb hl
  have h1 : (∃ ss, (i, ss) ∈ entries cfg.model m'.w) ↔ m'.w.done i = false := by
    constructor
    · rintro ⟨ss, hss⟩
      obtain ⟨c, g1, g2, g3, _⟩ := (mem_entries hd).1 hss
      rwa [g3] at g2
    · intro g
      exact ⟨_, (mem_entries hd).2 ⟨_, hb, g, rfl, rfl⟩⟩
  have h2 : ∀ l ∈ (Block.sub i ls kids).leaves, (∃ ss, (l.id, ss) ∈ entries cfg.model m'.w) ↔ m'.w.done l.id = false := by
    intro l hl
    constructor
    · rintro ⟨ss, hss⟩
      exact ((leaf_listed hp hd (hin l hl) ss).1 hss).1
    · intro g
      exact ⟨_, (leaf_listed hp hd (hin l hl) _).2 ⟨g, rfl⟩⟩
  rw [h1]
  cases hst : cfg.strategy with
  | fast => exact (hs hst).elim
  | reuse =>
    rw [reuse_subs cfg hst hp h t he i ls kids hb]
    simp
  | plain =>
    have hsp := eval_spec cfg hs hp (fun _ => mid_inv cfg hp h) t
    rw [he] at hsp
    obtain ⟨w1, lls, g1⟩ := hsp
    have hex := (g1.plain hst).2 _ hb
    simp only [Block.id] at hex
    constructor
    · intro g
      refine ⟨rfl, ?_⟩
      by_contra hno
      refine absurd (hex.2 ?_) (by rw [g]; simp)
      intro l hl
      cases hdl : m'.w.done l.id with
      | true => rfl
      | false => exact (hno ⟨l, hl, (h2 l hl).2 hdl⟩).elim
    · rintro ⟨_, l, hl, hss⟩
      have g := (h2 l hl).1 hss
      cases hdi : m'.w.done i with
      | false => rfl
      | true => rw [hex.1 hdi l hl] at g; cases g

/-- Nothing is printed exactly if all blocks ran, that is, if no leaf lacks a signal. -/
theorem C73_silent (cfg : Config K) (hs : cfg.strategy ≠ .fast) (hp : cfg.model.Proper) (hd : Shallow cfg.model) {m m' : Machine K}
    (h : Mid cfg m) (t : K) (he : evalModel cfg t m = .ok () m') (blk : BlkId → Str) (sig : SigId → Str) :
    report blk sig cfg.model m'.w = [] ↔ ∀ l ∈ cfg.model.leaves, l.kind ≠ .builder → ∀ s, ¬ Lacks m'.w l s := by
  have h1 : report blk sig cfg.model m'.w = [] ↔ entries cfg.model m'.w = [] := by
    unfold report reportText
    cases entries cfg.model m'.w with
    | nil => simp
    | cons e es => simp [heading]
  rw [h1]
  constructor
  · intro h2 l hl hk s hls
    obtain ⟨ss, hss⟩ := (C73_leaves cfg hs hp hd h t he l hl).1.2 ⟨hk, s, hls⟩
    rw [h2] at hss
    cases hss
  · intro h2
    have h3 : ∀ l ∈ cfg.model.leaves, ¬ ∃ ss, (l.id, ss) ∈ entries cfg.model m'.w := by
      intro l hl hss
      obtain ⟨hk, s, hls⟩ := (C73_leaves cfg hs hp hd h t he l hl).1.1 hss
      exact h2 l hl hk s hls
    rw [List.eq_nil_iff_forall_not_mem]
    rintro ⟨i, ss⟩ hss
    obtain ⟨c, g1, g2, g3, g4⟩ := (mem_entries hd).1 hss
    cases c with
    | leaf l => exact h3 l ((leaf_mem_all _ l).2 g1) ⟨ss, by rw [← g3] at hss; exact hss⟩
    | sub j ls kids =>
      simp only [Block.id] at g3
      subst g3
      obtain ⟨_, l, hl, hl2⟩ := (C73_submodels cfg hs hp hd h t he j ls kids g1).1 ⟨ss, hss⟩
      exact h3 l (leaves_sub_leaves g1 hl) hl2

/-! ## The cause -/

/-- `l` waits for `l'`: it lacks a signal that `l'` drives. -/
def WaitsFor (L : List (Leaf K)) (w : World K) (l l' : Leaf K) : Prop := l' ∈ L ∧ ∃ s, Lacks w l s ∧ s ∈ l'.outs

/-- Every listed leaf waits, directly or through other listed leaves, for one that is the cause: it lacks a signal that no block drives and that had no
value when the evaluation started (neither as a state nor from the inputs), or it waits for itself (an algebraic loop). -/
theorem C73_cause (cfg : Config K) (hs : cfg.strategy ≠ .fast) (hp : cfg.model.Proper) (hd : Shallow cfg.model) {m m' : Machine K}
    (h : Mid cfg m) (t : K) (he : evalModel cfg t m = .ok () m') (ha : ∀ l ∈ cfg.model.leaves, l.Assigns)
    (l : Leaf K) (hl : l ∈ cfg.model.leaves) (ss : List SigId) (hss : (l.id, ss) ∈ entries cfg.model m'.w) :
    ∃ l1 ∈ cfg.model.leaves, (∃ ss1, (l1.id, ss1) ∈ entries cfg.model m'.w) ∧
      Relation.ReflTransGen (WaitsFor cfg.model.leaves m'.w) l l1 ∧
      ((∃ s, Lacks m'.w l1 s ∧ (m.w.sig s).assigned = false ∧ ∀ l' ∈ cfg.model.leaves, s ∉ l'.outs) ∨
        Relation.TransGen (WaitsFor cfg.model.leaves m'.w) l1 l1) := by
  have hsp := eval_spec cfg hs hp (fun _ => mid_inv cfg hp h) t
  rw [he] at hsp
  obtain ⟨w1, ls, h1⟩ := hsp
  have hI : ∀ l ∈ cfg.model.leaves, cfg.model.leafId l.id := fun l hl => List.mem_map_of_mem hl
  have hb := h1.steps.basic (fun l hl => hI l (h1.sub l hl))
  -- a leaf that drives a signal without value has not been processed
  have hdrv : ∀ l' ∈ cfg.model.leaves, ∀ s ∈ l'.outs, (m'.w.sig s).assigned = false → m'.w.done l'.id = false := by
    intro l' hl' s hso hsa
    cases hdn : m'.w.done l'.id with
    | false => rfl
    | true =>
      rcases (hb.done _ (hI l' hl')).1 hdn with h4 | h4
      · have := h1.marked.done _ ((leaf_mem_all _ l').1 hl')
        simp only [Block.id, Block.isBuilder] at this
        rw [this] at h4
        have hk : l'.kind = .builder := by cases hk : l'.kind <;> simp_all
        unfold Leaf.outs at hso
        rw [hk] at hso
        simp [Kind.outs] at hso
      · obtain ⟨l2, hl2, e⟩ := List.mem_map.1 h4
        have : l2 = l' := List.inj_on_of_nodup_map hp.leafNodup (h1.sub l2 hl2) hl' e
        subst this
        rw [h1.steps.assigned (fun l hl => hI l (h1.sub l hl)) hl2 (ha _ hl') hso] at hsa
        cases hsa
  by_contra hno
  -- the leaves `l` waits for, none of which is a cause
  let S := { x : Leaf K // x ∈ cfg.model.leaves ∧ m'.w.done x.id = false ∧ Relation.ReflTransGen (WaitsFor cfg.model.leaves m'.w) l x }
  have hfin : Finite S := by
    have : Finite { x : Leaf K // x ∈ cfg.model.leaves } := List.finite_toSet _
    exact Finite.of_injective (fun x : S => (⟨x.1, x.2.1⟩ : { x : Leaf K // x ∈ cfg.model.leaves })) (by
      intro a b e
      exact Subtype.ext (by simpa using e))
  have hlst : ∀ x : S, ∃ ss, (x.1.id, ss) ∈ entries cfg.model m'.w := fun x => ⟨_, (leaf_listed hp hd x.2.1 _).2 ⟨x.2.2.1, rfl⟩⟩
  let r : S → S → Prop := fun x y => Relation.TransGen (WaitsFor cfg.model.leaves m'.w) y.1 x.1
  have hirr : Std.Irrefl r := ⟨fun x hx => hno ⟨x.1, x.2.1, hlst x, x.2.2.2, Or.inr hx⟩⟩
  have htr : IsTrans S r := ⟨fun x y z hxy hyz => Relation.TransGen.trans hyz hxy⟩
  have hwf : WellFounded r := Finite.wellFounded_of_trans_of_irrefl r
  obtain ⟨x, _, hx⟩ := hwf.has_min Set.univ ⟨(⟨l, hl, ((leaf_listed hp hd hl ss).1 hss).1, .refl⟩ : S), trivial⟩
  obtain ⟨s, f, g1, g2, g3⟩ := C17.C17_maximal cfg hs hp h t he x.1 x.2.1 x.2.2.1
  by_cases hun : ∀ l' ∈ cfg.model.leaves, s ∉ l'.outs
  · refine hno ⟨x.1, x.2.1, hlst x, x.2.2.2, Or.inl ⟨s, ⟨⟨f, g1, g2⟩, g3⟩, ?_, hun⟩⟩
    cases hsa : (m.w.sig s).assigned with
    | false => rfl
    | true =>
      rw [hb.mono s (by rw [h1.marked.sig]; exact hsa)] at g3
      cases g3
  · push Not at hun
    obtain ⟨l', hl', hso⟩ := hun
    have hw : WaitsFor cfg.model.leaves m'.w x.1 l' := ⟨hl', s, ⟨⟨f, g1, g2⟩, g3⟩, hso⟩
    exact hx ⟨l', hl', hdrv l' hl' s hso g3, x.2.2.2.tail hw⟩ trivial (.single hw)

/-- Conversely, blocks that wait for each other are all listed, each with a signal that only they drive. -/
theorem C73_loops (cfg : Config K) (hs : cfg.strategy ≠ .fast) (hp : cfg.model.Proper) (hd : Shallow cfg.model) {m m' : Machine K}
    (h : Mid cfg m) (t : K) (he : evalModel cfg t m = .ok () m') (C : Leaf K → Prop) (hC : C21.Waiting cfg.model.leaves m.w C)
    (l : Leaf K) (hl : l ∈ cfg.model.leaves) (hc : C l) (hk : l.kind ≠ .builder) :
    ∃ ss, (l.id, ss) ∈ entries cfg.model m'.w ∧ ∃ s ∈ ss, ∀ l' ∈ cfg.model.leaves, s ∈ l'.outs → C l' := by
  obtain ⟨_, h2⟩ := C21.C21_waiting_idle cfg hs hp h t C hC
  rw [he] at h2
  obtain ⟨s, g1, g2, g3⟩ := hC l hl hc
  have g4 : Lacks m'.w l s := ⟨g1, by
    have := h2 s g3
    simp only [stateOf] at this
    rw [this]; exact g2⟩
  obtain ⟨g5, g6⟩ := C73_leaves cfg hs hp hd h t he l hl
  obtain ⟨ss, hss⟩ := g5.2 ⟨hk, s, g4⟩
  exact ⟨ss, hss, s, ((g6 ss hss).2 s).2 g4, g3⟩

/-! ## Examples -/

/-- Names `b1`, …, and `s0`, … -/
private def blkName (i : BlkId) : Str := 98 :: (Nat.toDigits 10 i).map (fun c => c.toNat.toUInt8)
private def sigName (s : SigId) : Str := 115 :: (Nat.toDigits 10 s).map (fun c => c.toNat.toUInt8)

/-- The diagram of C17's example, in which no state is set: the model is listed, and the sum and the integrator, which require the state. -/
example : ∃ m', evalModel (Demo.cfg .plain) 3 Demo.start = .ok () m' ∧ Mid (Demo.cfg .plain) Demo.start ∧ Shallow (Demo.cfg .plain).model ∧
    entries (Demo.cfg .plain).model m'.w = [(100, []), (1, [2]), (4, [2])] ∧
    report blkName sigName (Demo.cfg .plain).model m'.w =
      "\n-- unprocessed blocks detected:\n- b100\n- b1\n  - s2\n- b4\n  - s2\n".toUTF8.toList :=
  ⟨_, eq_of_returns (by decide +kernel), .new _ _ (fun _ => rfl), by unfold Shallow; decide +kernel, by decide +kernel, by decide +kernel⟩

/-- Two gains feeding each other in a submodel, a gain behind them, a gain without input, and a source. -/
private def g1 : Leaf ℚ := { id := 1, links := [(0, Demo.rq), (1, Demo.ot)], kind := .gain (.scalar 2) 0 1 }
private def g2 : Leaf ℚ := { id := 2, links := [(1, Demo.rq), (0, Demo.ot)], kind := .gain (.scalar 3) 1 0 }
private def g3 : Leaf ℚ := { id := 3, links := [(1, Demo.rq), (2, Demo.ot)], kind := .gain (.scalar 3) 1 2 }
private def g4 : Leaf ℚ := { id := 4, links := [(9, Demo.rq), (3, Demo.ot)], kind := .gain (.scalar 3) 9 3 }
private def src : Leaf ℚ := { id := 5, links := [(5, Demo.ot)], kind := .source (fun t => .ok (.scalar t)) 5 }
private def loopModel : Block ℚ := .sub 100 [] [.sub 101 [] [.leaf g1, .leaf g2], .sub 102 [] [.leaf src], .leaf g3, .leaf g4]
private def loopCfg (st : Strategy) : Config ℚ := { Demo.cfg st with model := loopModel, deriv := fun _ => none, stepper := none }

private theorem loop_leaves : loopModel.leaves = [g1, g2, src, g3, g4] := by simp [loopModel, Block.leaves, leavesL]

/-- A simulator with `reuse_order` needs its order. -/
private def loopStart (st : Strategy) : Machine ℚ :=
  match st with
  | .reuse => { Demo.start with s := { Demo.start.s with po := some loopModel.all } }
  | _ => Demo.start

private theorem loop_mid (st : Strategy) : Mid (loopCfg st) (loopStart st) := by
  cases st with
  | plain => exact .new _ _ (fun _ => rfl)
  | reuse => exact .order (cfg := loopCfg .reuse) rfl (.new (cfg := loopCfg .reuse) Demo.world 0 (fun _ => rfl))
  | fast => exact .new _ _ (fun _ => rfl)

/-- Both causes are listed, with the gain behind the loop; submodels only without `reuse_order`.  The gain behind the loop waits for a block
that waits for itself. -/
example (st : Strategy) (hs : st ≠ .fast) : (loopCfg st).model.Proper ∧ Shallow (loopCfg st).model ∧ Mid (loopCfg st) (loopStart st) ∧
    (∀ l ∈ (loopCfg st).model.leaves, l.Assigns) ∧
    ∃ m', evalModel (loopCfg st) 3 (loopStart st) = .ok () m' ∧
      entries (loopCfg st).model m'.w =
        (if st = .plain then [(100, []), (101, [])] else []) ++ [(1, [0]), (2, [1])] ++ [(3, [1]), (4, [9])] ∧
      WaitsFor (loopCfg st).model.leaves m'.w g3 g1 ∧
      Relation.TransGen (WaitsFor (loopCfg st).model.leaves m'.w) g1 g1 ∧
      Lacks m'.w g4 9 ∧ ∀ l ∈ (loopCfg st).model.leaves, 9 ∉ l.outs := by
  have hlv : (loopCfg st).model.leaves = [g1, g2, src, g3, g4] := loop_leaves
  refine ⟨by show loopModel.Proper; unfold Block.Proper; decide +kernel, by show Shallow loopModel; unfold Shallow; decide +kernel, loop_mid st, ?_,
    _, eq_of_returns (by cases st <;> decide +kernel), ?_, ?_, ?_, ?_, ?_⟩
  · rw [hlv]
    intro l hl
    simp only [List.mem_cons, List.not_mem_nil, or_false] at hl
    rcases hl with rfl | rfl | rfl | rfl | rfl <;> exact assigns_library _ (by simp [g1, g2, g3, g4, src])
  · cases st with
    | fast => exact (hs rfl).elim
    | plain => decide +kernel
    | reuse => decide +kernel
  · rw [hlv]
    exact ⟨by simp, 1, ⟨⟨Demo.rq, by simp [g3], by decide⟩, by cases st <;> decide +kernel⟩, by decide +kernel⟩
  · rw [hlv]
    exact .tail (.single (b := g2) ⟨by simp, 0, ⟨⟨Demo.rq, by simp [g1], by decide⟩, by cases st <;> decide +kernel⟩, by decide +kernel⟩)
      ⟨by simp, 1, ⟨⟨Demo.rq, by simp [g2], by decide⟩, by cases st <;> decide +kernel⟩, by decide +kernel⟩
  · exact ⟨⟨Demo.rq, by simp [g4], by decide⟩, by cases st <;> decide +kernel⟩
  · rw [hlv]; decide +kernel

/-- They wait for each other, as `C73_loops` assumes. -/
example (st : Strategy) : C21.Waiting (loopCfg st).model.leaves (loopStart st).w (fun l => l.id = 1 ∨ l.id = 2) := by
  have hlv : (loopCfg st).model.leaves = [g1, g2, src, g3, g4] := loop_leaves
  rw [hlv]
  intro l hl hc
  simp only [List.mem_cons, List.not_mem_nil, or_false] at hl
  rcases hl with rfl | rfl | rfl | rfl | rfl
  · exact ⟨0, ⟨Demo.rq, by simp [g1], by decide⟩, by cases st <;> rfl, by decide +kernel⟩
  · exact ⟨1, ⟨Demo.rq, by simp [g2], by decide⟩, by cases st <;> rfl, by decide +kernel⟩
  all_goals exact absurd hc (by decide)

/-- Different names without line breaks. -/
example : Function.Injective (fun i : BlkId => List.replicate i (97 : UInt8)) ∧ ∀ i : BlkId, (10 : UInt8) ∉ List.replicate i (97 : UInt8) :=
  ⟨fun a b h => by simpa using congrArg List.length h, fun i h => absurd (List.eq_of_mem_replicate h) (by decide)⟩

/-- `ValidName`s have no line breaks. -/
example : reportText [(emend [97, 10, 98], [emend [120]]), (emend [99], [])] = "\n-- unprocessed blocks detected:\n- a_b\n  - x\n- c\n".toUTF8.toList ∧
    (10 : UInt8) ∉ emend [97, 10, 98] := by decide +kernel

/-- Printing in the middle of `process_model`: in debug builds only. -/
example : returns (processModel (loopCfg .plain) 3 true true Demo.start) = true ∧
    (match processPrint (loopCfg .plain) blkName sigName 3 true Demo.start with
      | .ok text _ => text
      | .error _ _ => []) =
      "\n-- unprocessed blocks detected:\n- b100\n- b101\n- b1\n  - s0\n- b2\n  - s1\n- b3\n  - s1\n- b4\n  - s9\n".toUTF8.toList ∧
    (match processPrint { loopCfg .plain with dbg := false } blkName sigName 3 true Demo.start with
      | .ok text _ => text
      | .error _ _ => [0]) = [] := by decide +kernel

end Pooya.C73
