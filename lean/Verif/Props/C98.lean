import Verif.Spec.Recur
import Verif.Props.C94
import Verif.Proof.Repeat

/-! # C98: what comes back once comes back for ever -/

namespace Pooya.C98

open Pooya C60 C69 C72 Within

set_option linter.unusedSectionVars false

section
variable {F : Type} [_root_.Field F] [LinearOrder F] [IsStrictOrderedRing F]
attribute [local instance] Arith.exact

variable {c a b t u : F}

theorem le_later (a b c : F) : ((a + c) <=. (b + c)) = (a <=. b) := decide_eq_decide.2 (by simp)
theorem lt_later (a b c : F) : ((a + c) <. (b + c)) = (a <. b) := decide_eq_decide.2 (by simp)
theorem eq_later (a b c : F) : ((a + c) ==. (b + c)) = (a ==. b) := decide_eq_decide.2 (by simp)
theorem sub_later (a b c : F) : ((a + c) -. (b + c)) = (a -. b) := add_sub_add_right_eq_sub a b c
theorem add_later (a b c : F) : ((a + c) +. b) = (a +. b) + c := add_right_comm a c b
theorem back_later (a b c : F) : ((a + c) -. b) = (a -. b) + c := add_sub_right_comm a c b

theorem fmin_later (a b c : F) : fmin (a + c) (b + c) = fmin a b + c := by
  unfold fmin
  simp only [lt_later]
  split <;> rfl

theorem recalled {ts : List F} {xs : List (Val F)} {q : F} {init v : Val F} (h : Recalled ts xs q init v) : Recalled (ts.map (· + c)) xs (q + c) init v := by
  cases h with
  | before e h => exact .before (by rw [e]; rfl) (by rw [le_later]; exact h)
  | after e h1 e2 h2 e3 => exact .after (by rw [e]; rfl) (by rw [le_later]; exact h1) (by rw [List.getLast?_map, e2]; rfl) (by rw [le_later]; exact h2) e3
  | between e h1 e2 h2 h3 e4 e5 h4 e6 e7 h5 =>
    refine .between (by rw [e]; rfl) (by rw [le_later]; exact h1) (by rw [List.getLast?_map, e2]; rfl) (by rw [le_later]; exact h2) (fun j s hj hs => ?_)
      (by rw [List.getElem?_map, e4]; rfl) (by rw [List.getElem?_map, e5]; rfl) (by rw [le_later]; exact h4) e6 e7 (by simp only [sub_later]; exact h5)
    rw [List.getElem?_map, Option.map_eq_some_iff] at hs
    obtain ⟨s, hs, rfl⟩ := hs
    rw [le_later]
    exact h3 j s hj hs

variable {cfg : Config F} {ps : List (Wire F)} {ty : SigId → Ty} {rank : BlkId → Nat} {V : Vars} {mem mem' : BlkId → Mem F} {x d : List F} {val : SigId → Option (Val F)}

theorem solved {l : Leaf F} (hl : l.Recurs c) {μ : Mem F} (h : l.Solved t μ val) : l.Solved (t + c) (μ.later c) val := by
  unfold Leaf.Recurs at hl
  unfold Leaf.Solved at h ⊢
  cases hk : l.kind <;> rw [hk] at hl h <;> dsimp only at hl h ⊢ <;> first
    | exact h
    | (simp only [hl]; exact h)
    | skip
  · simp only [Mem.later, List.map_eq_nil_iff]
    split at h
    · rename_i e; rw [if_pos e]; exact h
    · rename_i e
      rw [if_neg e]
      obtain ⟨dv, r, e1, e2, init, h1, h2⟩ := h
      refine ⟨dv, r, e1, e2, init, by rw [back_later]; exact recalled h1, ?_⟩
      rintro ⟨t0, rest, e3, e4⟩
      rw [List.map_eq_cons_iff] at e3
      obtain ⟨t0, rest, e3, rfl, rfl⟩ := e3
      rw [back_later, le_later] at e4
      exact h2 ⟨t0, rest, e3, e4⟩
  · rw [show (μ.later c).firstStep = μ.firstStep from rfl]
    split at h
    · rename_i e; rw [if_pos e]; exact h
    · rename_i e
      rw [if_neg e]
      obtain ⟨t0, e1, h⟩ := h
      refine ⟨t0 + c, by simp only [Mem.later, e1]; rfl, ?_⟩
      rw [eq_later, sub_later]
      exact h

theorem stored {l : Leaf F} (hl : l.Recurs c) {μ μ' : Mem F} (h : l.Stored t val μ μ') : l.Stored (t + c) val (μ.later c) (μ'.later c) := by
  unfold Leaf.Recurs at hl
  unfold Leaf.Stored at h ⊢
  cases hk : l.kind <;> rw [hk] at hl h <;> dsimp only at hl h ⊢ <;> first
    | rw [h]
    | (obtain ⟨v, e, rfl⟩ := h; exact ⟨v, e, rfl⟩)
    | (obtain ⟨vs, r, e1, e2, rfl⟩ := h; exact ⟨vs, r, e1, (by rw [(hl t).2.2]; exact e2), rfl⟩)
    | skip
  obtain ⟨k, v, e, h1, h2, h3, rfl⟩ := h
  refine ⟨k, v, e, fun j s hj hs => ?_, fun s hs => ?_, by simpa [Mem.later] using h3, by simp [Mem.later]⟩
  · simp only [Mem.later, List.getElem?_map, Option.map_eq_some_iff] at hs
    obtain ⟨s, hs, rfl⟩ := hs
    rw [back_later, le_later]
    exact h1 j s hj hs
  · simp only [Mem.later, List.getElem?_map, Option.map_eq_some_iff] at hs
    obtain ⟨s, hs, rfl⟩ := hs
    rw [back_later, le_later]
    exact h2 s hs

/-- Nothing in the program notices that it is `c` later. -/
structure Unaware (cfg : Config F) (c : F) : Prop where
  block : ∀ l ∈ cfg.model.leaves, l.Recurs c
  input : ∀ t, cfg.inputVals (t + c) = cfg.inputVals t

theorem solution (hu : Unaware cfg c) (h : Solution cfg V mem t x val) : Solution cfg V (fun i => (mem i).later c) (t + c) x val :=
  ⟨by rw [hu.input]; exact h.input, h.state, fun l hl hr => solved (hu.block l hl) (h.block l hl hr)⟩

theorem rhs (hu : Unaware cfg c) (h : Rhs cfg V mem t x d) : Rhs cfg V (fun i => (mem i).later c) (t + c) x d :=
  h.imp fun _ h => ⟨solution hu h.1, h.2⟩

theorem committed (hu : Unaware cfg c) (h : Committed cfg V mem t x val mem') : Committed cfg V (fun i => (mem i).later c) (t + c) x val (fun i => (mem' i).later c) :=
  ⟨solution hu h.solution, fun l hl => stored (hu.block l hl) (h.stored l hl)⟩

/-- A step of any of the methods. -/
theorem by_later {R R' : F → List F → List F → Prop} (hR : ∀ {t x d}, R t x d → R' (t + c) x d) {st : Stepper F} (hst : st ∈ [euler, rk4, rkf45]) {r : List F × F}
    (h : (st t x u).By R r) : (st (t + c) x (u + c)).By R' r := by
  simp only [List.mem_cons, List.not_mem_nil, or_false] at hst
  rcases hst with rfl | rfl | rfl
  · unfold euler at h ⊢
    simp only [sub_later, StepProg.By] at h ⊢
    obtain ⟨_, h1, e⟩ := h
    exact ⟨_, hR h1, e⟩
  · unfold rk4 at h ⊢
    simp only [sub_later, add_later, StepProg.By] at h ⊢
    obtain ⟨_, h1, _, h2, _, h3, _, h4, e⟩ := h
    exact ⟨_, hR h1, _, hR h2, _, hR h3, _, hR h4, e⟩
  · unfold rkf45 at h ⊢
    simp only [sub_later, add_later, StepProg.By] at h ⊢
    obtain ⟨_, h1, _, h2, _, h3, _, h4, _, h5, _, h6, e⟩ := h
    exact ⟨_, hR h1, _, hR h2, _, hR h3, _, hR h4, _, hR h5, _, hR h6, e⟩

theorem suits {minH q : F} {force : Bool} : Suits minH (t + c) (u + c) force q ↔ Suits minH t u force q := by
  unfold Suits
  rw [sub_later]

theorem adapts (hu : Unaware cfg c) {st : Stepper F} (hst : st ∈ [euler, rk4, rkf45]) {minH maxH t1 t2 : F} {force : Bool} {y : List F} {es : List (StepEv F)}
    (h : Adapts cfg V st minH maxH t mem t1 t2 force x es y val mem') :
    Adapts cfg V st minH maxH (t + c) (fun i => (mem i).later c) (t1 + c) (t2 + c) force x (es.map (StepEv.later c)) y val (fun i => (mem' i).later c) := by
  induction h with
  | reject a1 a2 a3 _ ih =>
    rw [← add_later] at ih
    exact .reject (by rw [lt_later]; exact a1) (by_later (rhs hu) hst a2) (fun k => a3 (suits.1 k)) ih
  | step a1 a2 a3 a4 a5 _ ih =>
    rw [← fmin_later, ← add_later] at ih
    exact .step (by rw [lt_later]; exact a1) (by_later (rhs hu) hst a2) (suits.2 a3) (by rw [lt_later]; exact a4) (committed hu a5) ih
  | last a1 a2 a3 a4 a5 =>
    exact .last (by rw [lt_later]; exact a1) (by_later (rhs hu) hst a2) (suits.2 a3) (by rw [lt_later]; exact a4) (committed hu a5)

/-- A snapshot `c` later. -/
def later (c : F) (a : Snapshot F) : Snapshot F := ⟨fun i => (a.mem i).later c, a.time + c, a.state, a.vals⟩

theorem paces (hu : Unaware cfg c) (he : ∀ st, cfg.stepper = some st → st ∈ [euler, rk4, rkf45]) {minH maxH : F} {a b : Snapshot F} {ts : List F} {es : List (StepEv F)}
    (h : Paces cfg V minH maxH a ts es b) : Paces cfg V minH maxH (later c a) (ts.map (· + c)) (es.map (StepEv.later c)) (later c b) := by
  induction h with
  | nil => exact .nil
  | steps k1 k2 k3 _ ih =>
    rw [List.map_append]
    exact .steps k1 k2 (adapts hu (he _ k2) k3) ih
  | sample k1 k2 _ ih => exact .sample k1 (committed hu k2) ih

theorem split {minH maxH : F} {us : List F} : ∀ {a b : Snapshot F} {ts : List F} {es : List (StepEv F)}, Paces cfg V minH maxH a (us ++ ts) es b →
    ∃ z es1 es2, Paces cfg V minH maxH a us es1 z ∧ Paces cfg V minH maxH z ts es2 b := by
  induction us with
  | nil => exact fun {a _ _ _} h => ⟨a, [], _, .nil, h⟩
  | cons u us ih =>
    intro a b ts es h
    rw [List.cons_append] at h
    generalize hl : u :: (us ++ ts) = l at h
    cases h with
    | nil => cases hl
    | steps k1 k2 k3 k4 =>
      obtain ⟨rfl, rfl⟩ := List.cons_eq_cons.1 hl
      obtain ⟨z, _, _, q1, q2⟩ := ih k4
      exact ⟨z, _, _, .steps k1 k2 k3 q1, q2⟩
    | sample k1 k2 k3 =>
      obtain ⟨rfl, rfl⟩ := List.cons_eq_cons.1 hl
      obtain ⟨z, _, _, q1, q2⟩ := ih k3
      exact ⟨z, _, _, .sample k1 k2 q1, q2⟩

/-- The state signals show the state. -/
theorem packed {st : Stepper F} {minH maxH t1 t2 : F} {force : Bool} {y : List F} {es : List (StepEv F)} (h : Adapts cfg V st minH maxH t mem t1 t2 force x es y val mem') :
    Packed val V.size V.scalars V.arrays y := by
  induction h with
  | reject _ _ _ _ ih => exact ih
  | step _ _ _ _ _ _ ih => exact ih
  | last _ _ _ _ h => exact h.solution.state

theorem kept {minH maxH : F} {a b : Snapshot F} {ts : List F} {es : List (StepEv F)} (h : Paces cfg V minH maxH a ts es b) (ha : Packed a.vals V.size V.scalars V.arrays a.state) :
    Packed b.vals V.size V.scalars V.arrays b.state := by
  induction h with
  | nil => exact ha
  | steps _ _ k _ ih => exact ih (packed k)
  | sample _ k _ ih => exact ih k.solution.state

theorem later_later (c d : F) (μ : Mem F) : (μ.later c).later d = μ.later (c + d) := by
  simp only [Mem.later, Option.map_map, List.map_map]
  congr 2 <;> (try funext x) <;> simp [add_assoc]

theorem later_zero (μ : Mem F) : μ.later 0 = μ := by simp [Mem.later]

theorem Unaware.back (hu : Unaware cfg c) : Unaware cfg (-c) where
  block l hl := by
    have h := hu.block l hl
    unfold Leaf.Recurs at h ⊢
    cases hk : l.kind <;> rw [hk] at h <;> dsimp only at h ⊢ <;> first
      | trivial
      | (intro t; have := h (t + -c); rw [neg_add_cancel_right] at this; exact this.symm)
      | (intro t; obtain ⟨h1, h2, h3⟩ := h (t + -c); rw [neg_add_cancel_right] at h1 h2 h3; exact ⟨h1.symm, h2.symm, h3.symm⟩)
  input t := by have := hu.input (t + -c); rw [neg_add_cancel_right] at this; exact this.symm

theorem alike_later {a b : Snapshot F} (h : C69.Alike cfg ps a b) (d : F) : C69.Alike cfg ps (later d a) (later d b) :=
  ⟨congrArg (· + d) h.time, h.state, fun l hl => congrArg (Mem.later d) (h.mem l hl), h.vals⟩

theorem alike_trans {a b e : Snapshot F} (h : C69.Alike cfg ps a b) (h' : C69.Alike cfg ps b e) : C69.Alike cfg ps a e :=
  ⟨h.time.trans h'.time, h.state.trans h'.state, fun l hl => (h.mem l hl).trans (h'.mem l hl), fun s hs => (h.vals s hs).trans (h'.vals s hs)⟩

theorem alike_symm {a b : Snapshot F} (h : C69.Alike cfg ps a b) : C69.Alike cfg ps b a := ⟨h.time.symm, h.state.symm, fun l hl => (h.mem l hl).symm, fun s hs => (h.vals s hs).symm⟩

theorem alike_twice (a : Snapshot F) (d e : F) : C69.Alike cfg ps (later e (later d a)) (later (d + e) a) :=
  ⟨add_assoc _ _ _, rfl, fun _ _ => later_later _ _ _, fun _ _ => rfl⟩

theorem alike_zero (a : Snapshot F) : C69.Alike cfg ps (later 0 a) a := ⟨add_zero _, rfl, fun _ _ => later_zero _, fun _ _ => rfl⟩

theorem rounds_succ (c : F) (vs ts : List F) (n : Nat) :
    rounds c vs (n + 1) ++ ts.map (· + ((n + 1 : Nat) : F) * c) = vs ++ (rounds c vs n ++ ts.map (· + (n : F) * c)).map (· + c) := by
  simp only [rounds, List.map_append, List.map_map, List.append_assoc]
  congr 2
  refine List.map_congr_left fun x _ => ?_
  simp only [Function.comp, Nat.cast_succ]
  ring

/-- A diagram that is back after `vs` is back after any number of rounds. -/
theorem again (h : cfg.Sealed ps ty rank) (hV : ∀ s, s ∈ V.scalars ++ V.arrays ↔ ∃ p ∈ ps, p.obj.isState = true ∧ p.Gives s)
    (he : ∀ st, cfg.stepper = some st → st ∈ [euler, rk4, rkf45]) (hu : Unaware cfg c) {minH maxH : F} {a1 a2 a3 b : Snapshot F} {vs ts : List F} {ev et : List (StepEv F)}
    (h2 : Paces cfg V minH maxH a1 vs ev a2) (hc : C69.Alike cfg ps (later c a1) a2) (h13 : C69.Alike cfg ps a1 a3) (h3 : Paces cfg V minH maxH a3 ts et b) (n : Nat) :
    ∀ {s b' : Snapshot F} {es : List (StepEv F)}, C69.Alike cfg ps a1 s → Paces cfg V minH maxH s (rounds c vs n ++ ts.map (· + (n : F) * c)) es b' →
      C69.Alike cfg ps (later ((n : F) * c) b) b' := by
  induction n with
  | zero =>
    intro s b' es hs hp
    have : rounds c vs 0 ++ ts.map (· + ((0 : Nat) : F) * c) = ts := by simp [rounds]
    rw [this] at hp
    rw [Nat.cast_zero, zero_mul]
    exact alike_trans (alike_zero b) (paces_unique h hV h3 (alike_trans (alike_symm h13) hs) hp).2
  | succ n ih =>
    intro s b' es hs hp
    rw [rounds_succ] at hp
    obtain ⟨z, _, _, q1, q2⟩ := split hp
    have hz := (paces_unique h hV h2 hs q1).2
    have q3 := paces hu.back he q2
    rw [List.map_map, show ((· + -c) ∘ (· + c) : F → F) = id from funext fun x => add_neg_cancel_right x c, List.map_id] at q3
    have hz' : C69.Alike cfg ps a1 (later (-c) z) := by
      refine alike_trans (alike_symm (alike_zero a1)) ?_
      rw [← add_neg_cancel c]
      exact alike_trans (alike_symm (alike_twice a1 c (-c))) (alike_later (alike_trans hc hz) _)
    have k := alike_trans (alike_symm (alike_twice b _ c)) (alike_trans (alike_later (ih hz' q3) c) (alike_twice b' (-c) c))
    rw [neg_add_cancel] at k
    rw [Nat.cast_succ, add_mul, one_mul]
    exact alike_trans k (alike_zero b')

end

section
variable {F : Type} [_root_.Field F] [LinearOrder F] [IsStrictOrderedRing F] [Archimedean F]
attribute [local instance] Arith.exact

/-- C98: a program in which nothing notices that it is `c` later - the functions the user wrote and the inputs have the period `c`, or do not look at the clock at all.  It is
simulated in exact arithmetic with Euler, Rk4 or Rkf45.  After the times `us` and then `vs` let the diagram be back where it was after `us`: it is `c` later, all signals have the same values,
and the members of the blocks are the same except that the times `Derivative`s and `Delay`s have recorded are `c` later.  If it goes through `vs` again and again, each time `c` later
than before, then after any number `n` of such rounds, and any further times `ts` shifted by `n c`, all signals have the values they have with `ts` after `us` without any rounds in between. -/
theorem C98_forever (cfg : Config F) (ps : List (Wire F)) (ty : SigId → Ty) (rank : BlkId → Nat) (h : cfg.Sealed ps ty rank) (hpl : ∀ p ∈ ps, p.obj.Plain)
    (he : ∀ st, cfg.stepper = some st → st ∈ [euler, rk4, rkf45]) (c : F) (hb : ∀ l ∈ cfg.model.leaves, l.Recurs c) (hin : ∀ t, cfg.inputVals (t + c) = cfg.inputVals t)
    (w : World F) (hw : w.New cfg ty) (hlog : w.log = []) (tPrev t0 minH maxH : F) (h0 : 0 < minH) (h1 : minH < maxH) :
    ∃ m0, Call.exec cfg (.init t0) { w := w, s := { tPrev := tPrev } } = .ok () m0 ∧
      ∀ us vs : List F, (t0 :: (us ++ vs)).Pairwise (· < ·) → ∀ m1 m2, RunsTo cfg minH maxH m0 us m1 → RunsTo cfg minH maxH m0 (us ++ vs) m2 →
        m2.s.tPrev = m1.s.tPrev + c → (∀ p ∈ ps, m2.w.mem p.id = (m1.w.mem p.id).later c ∧ ∀ s, p.Takes s ∨ p.Gives s → m1.w.shown s = m2.w.shown s) →
        ∀ (n : Nat) (ts : List F), (t0 :: (us ++ ts)).Pairwise (· < ·) → (t0 :: (us ++ (rounds c vs n ++ ts.map (· + (n : F) * c)))).Pairwise (· < ·) →
          (∃ m, RunsTo cfg minH maxH m0 (us ++ ts) m) ∧ (∃ m', RunsTo cfg minH maxH m0 (us ++ (rounds c vs n ++ ts.map (· + (n : F) * c))) m') ∧
          ∀ m m', RunsTo cfg minH maxH m0 (us ++ ts) m → RunsTo cfg minH maxH m0 (us ++ (rounds c vs n ++ ts.map (· + (n : F) * c))) m' →
            ∀ p ∈ ps, m'.w.mem p.id = (m.w.mem p.id).later ((n : F) * c) ∧ ∀ s, p.Takes s ∨ p.Gives s → m.w.shown s = m'.w.shown s := by
  have hu : Unaware cfg c := ⟨hb, hin⟩
  obtain ⟨m0, V, x0, a1, rfl, a3, a4, a5, a6, a7⟩ := C76.C76_paces cfg ps ty rank h hpl he w hw hlog tPrev t0 minH maxH h0 h1
  refine ⟨m0, a1, fun us vs huv m1 m2 r1 r2 ht hback n ts hts hts' => ⟨(a7 _ hts).1, (a7 _ hts').1, fun m m' r3 r4 p hp => ?_⟩⟩
  have huv1 : (t0 :: us).Pairwise (· < ·) := by
    rw [← List.cons_append] at huv
    exact (List.pairwise_append.1 huv).1
  obtain ⟨y1, n1, _, _, q1⟩ := (a7 _ huv1).2 m1 r1
  obtain ⟨y2, n2, _, _, q2⟩ := (a7 _ huv).2 m2 r2
  obtain ⟨y3, n3, _, _, q3⟩ := (a7 _ hts).2 m r3
  obtain ⟨y4, n4, _, _, q4⟩ := (a7 _ hts').2 m' r4
  have hrefl : ∀ a : Snapshot F, C69.Alike cfg ps a a := fun a => ⟨rfl, rfl, fun _ _ => rfl, fun _ _ => rfl⟩
  have hy : y1 = y2 := packed_unique (kept q1 a6.solution.state) (kept q2 a6.solution.state) fun s hs => by
    obtain ⟨p, hp, _, hg⟩ := (a3 s).1 hs
    exact (hback p hp).2 s (.inr hg)
  obtain ⟨z2, _, _, u2, v2⟩ := split q2
  obtain ⟨z3, _, _, u3, v3⟩ := split q3
  obtain ⟨z4, _, _, u4, v4⟩ := split q4
  have hz4 := (paces_unique h a3 u3 (hrefl _) u4).2
  have hz2 := (paces_unique h a3 u2 (hrefl _) u3).2
  have hz1 := (paces_unique h a3 q1 (hrefl _) u2).2
  have hc : C69.Alike cfg ps (later c z2) ⟨m2.w.mem, m2.s.tPrev, y2, m2.w.shown⟩ := by
    refine alike_trans (alike_later (alike_symm hz1) c) ⟨ht.symm, hy, fun l hl => ?_, fun s ⟨p, hp, hs⟩ => (hback p hp).2 s hs⟩
    obtain ⟨p, hp, f⟩ := C59.leaf_wire h hl
    show (m1.w.mem l.id).later c = m2.w.mem l.id
    rw [f.id]
    exact (hback p hp).1.symm
  have hal := again h a3 he hu v2 hc hz2 v3 n (alike_trans hz2 hz4) v4
  obtain ⟨l, hl, f⟩ := C59.wire_leaf h hp
  exact ⟨f.id ▸ (hal.mem l hl).symm, fun s hs => hal.vals s ⟨p, hp, hs⟩⟩

end

/-! ## Example: Euler's method makes `x' = -2 x` swing for ever if the steps have length 1 -/

section
attribute [local instance] Arith.exact

theorem recurs (st : Strategy) (c : ℚ) : ∀ l ∈ (C94.prog (-2) euler st).model.leaves, l.Recurs c := by
  intro l hl
  rw [C94.leaves_eq] at hl
  simp only [List.mem_cons, List.not_mem_nil, or_false] at hl
  rcases hl with rfl | rfl <;> trivial

def start (st : Strategy) : Machine ℚ := stateOf (Call.exec (C94.prog (-2) euler st) (.init 0) { w := C94.world 3 5, s := { tPrev := 0 } })
def one (st : Strategy) : Machine ℚ := stateOf (Call.exec (C94.prog (-2) euler st) (.run 10 1 (1/2) 2) (start st))
def two (st : Strategy) : Machine ℚ := stateOf (Call.exec (C94.prog (-2) euler st) (.run 10 2 (1/2) 2) (one st))

theorem started (st : Strategy) : Call.exec (C94.prog (-2) euler st) (.init 0) { w := C94.world 3 5, s := { tPrev := 0 } } = .ok () (start st) := eq_of_returns (by cases st <;> decide +kernel)

theorem runs_one (st : Strategy) : RunsTo (C94.prog (-2) euler st) (1/2) 2 (start st) [1] (one st) := .cons 10 (eq_of_returns (by cases st <;> decide +kernel)) .nil
theorem runs_two (st : Strategy) : RunsTo (C94.prog (-2) euler st) (1/2) 2 (start st) [1, 2] (two st) :=
  .cons 10 (eq_of_returns (by cases st <;> decide +kernel)) (.cons 10 (eq_of_returns (by cases st <;> decide +kernel)) .nil)

theorem rounds_eq (n : Nat) : ∀ t ∈ rounds (2 : ℚ) [1, 2] n, 0 < t ∧ t ≤ n * 2 := by
  induction n with
  | zero => intro t ht; cases ht
  | succ n ih =>
    intro t ht
    simp only [rounds, List.cons_append, List.nil_append, List.mem_cons, List.mem_map] at ht
    push_cast
    have : (0 : ℚ) ≤ n := Nat.cast_nonneg n
    rcases ht with rfl | rfl | ⟨u, hu, rfl⟩
    · constructor <;> linarith
    · constructor <;> linarith
    · obtain ⟨k1, k2⟩ := ih u hu
      constructor <;> linarith

theorem rounds_sorted (n : Nat) : (rounds (2 : ℚ) [1, 2] n).Pairwise (· < ·) := by
  induction n with
  | zero => exact .nil
  | succ n ih =>
    simp only [rounds, List.cons_append, List.nil_append, List.pairwise_cons, List.mem_cons, List.mem_map, List.pairwise_map, add_lt_add_iff_right]
    refine ⟨?_, ?_, ih⟩
    · rintro a (rfl | ⟨u, hu, rfl⟩)
      · norm_num
      · linarith [(rounds_eq n u hu).1]
    · rintro a ⟨u, hu, rfl⟩
      linarith [(rounds_eq n u hu).1]

/-- Though the exact solution decays, the simulated one is where it began after 2, 4, 6, ... steps of length 1, and has the opposite sign after 1, 3, 5, ...: all hypotheses of
`C98_forever` hold, and the first two steps decide about all others. -/
theorem C98_swing (st : Strategy) (n : Nat) : (∀ m, RunsTo (C94.prog (-2) euler st) (1/2) 2 (start st) (rounds 2 [1, 2] n) m → m.w.shown 0 = some (.array [3, 5])) ∧
    (∀ m, RunsTo (C94.prog (-2) euler st) (1/2) 2 (start st) (rounds (2 : ℚ) [1, 2] n ++ [1 + (n : ℚ) * 2]) m → m.w.shown 0 = some (.array [-3, -5])) ∧
    ∃ m, RunsTo (C94.prog (-2) euler st) (1/2) 2 (start st) (rounds (2 : ℚ) [1, 2] n ++ [1 + (n : ℚ) * 2]) m := by
  obtain ⟨m0, a1, a2⟩ := C98_forever (C94.prog (-2) euler st) (C94.wires (-2)) _ _ (C94.sealed (-2) euler (by simp) st) (by simp [C94.wires, Make.Plain])
    (fun s e => by obtain rfl := Option.some_inj.1 e; simp) 2 (recurs st 2) (fun _ => rfl) (C94.world 3 5) (C94.new (-2) 3 5 euler st) rfl 0 0 (1/2) 2 (by norm_num) (by norm_num)
  rw [started] at a1
  cases a1
  have hback : ∀ p ∈ C94.wires (-2), (two st).w.mem p.id = ((start st).w.mem p.id).later 2 ∧ ∀ s, p.Takes s ∨ p.Gives s → (start st).w.shown s = (two st).w.shown s := by
    have h0 : (start st).w.shown 0 = (two st).w.shown 0 ∧ (start st).w.shown 1 = (two st).w.shown 1 := by cases st <;> decide +kernel
    have h1 : ∀ i ∈ [1, 2], (two st).w.mem i = ((start st).w.mem i).later 2 := by cases st <;> decide +kernel
    intro p hp
    obtain ⟨k1, k2, _, _, _, k3⟩ := C94.wires_mem (-2) p hp
    refine ⟨h1 _ (by rcases k3 with e | e <;> rw [e] <;> simp), fun s hs => ?_⟩
    have : s = 0 ∨ s = 1 := by
      rcases hs with hs | hs
      · rw [k2 s hs]; rcases k3 with e | e <;> rw [e] <;> simp
      · rw [k1 s hs]; rcases k3 with e | e <;> rw [e] <;> simp
    rcases this with rfl | rfl
    · exact h0.1
    · exact h0.2
  have key := a2 [] [1, 2] (by simp) (start st) (two st) .nil (runs_two st) (by cases st <;> decide +kernel) hback n
  have hs : ((0 : ℚ) :: rounds 2 [1, 2] n).Pairwise (· < ·) := List.pairwise_cons.2 ⟨fun t ht => (rounds_eq n t ht).1, rounds_sorted n⟩
  have hs' : ((0 : ℚ) :: (rounds 2 [1, 2] n ++ [1 + (n : ℚ) * 2])).Pairwise (· < ·) := by
    rw [← List.cons_append]
    refine List.pairwise_append.2 ⟨hs, List.pairwise_singleton _ _, fun a ha b hb => ?_⟩
    rw [List.mem_singleton.1 hb]
    have : (0 : ℚ) ≤ n := Nat.cast_nonneg n
    rcases List.mem_cons.1 ha with rfl | ha
    · linarith
    · linarith [(rounds_eq n a ha).2]
  have hw : (⟨1, .integrator .array, [C94.sg "in" 1], [C94.sg "out" 0]⟩ : Wire ℚ) ∈ C94.wires (-2) := .head _
  have hg : Wire.Gives (⟨1, .integrator .array, [C94.sg "in" 1], [C94.sg "out" 0]⟩ : Wire ℚ) 0 := ⟨str "out", .array 2, .head _⟩
  have key0 := key [] (by simp) (by simpa using hs)
  have key1 := key [1] (by simp) (by simpa using hs')
  simp only [List.nil_append, List.map_nil, List.append_nil, List.map_cons] at key0 key1
  refine ⟨fun m hm => ?_, fun m hm => ?_, key1.2.1⟩
  · rw [← (key0.2.2 _ m .nil hm _ hw).2 0 (.inr hg)]
    cases st <;> decide +kernel
  · rw [← (key1.2.2 _ m (runs_one st) hm _ hw).2 0 (.inr hg)]
    cases st <;> decide +kernel

end

end Pooya.C98
