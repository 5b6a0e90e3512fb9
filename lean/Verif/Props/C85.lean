import Verif.Proof.Timed
import Verif.Proof.Chord
import Mathlib.Analysis.SpecialFunctions.Trigonometric.Deriv

/-! # C85: Memory, Derivative and Delay applied to functions of time -/

namespace Pooya.C85

open Pooya C60 C69

set_option linter.unusedSectionVars false

section
variable {K : Type} [Arith K] {cfg : Config K} {ps : List (Wire K)} {ty : SigId → Ty} {rank : BlkId → Nat}

theorem all_solved (h : cfg.Sealed ps ty rank) {V : Vars} (hV : ∀ s, s ∈ V.scalars ++ V.arrays ↔ ∃ p ∈ ps, p.obj.isState = true ∧ p.Gives s)
    {mem : BlkId → Mem K} {t : K} {x : List K} {val : SigId → Option (Val K)} (hs : Solution cfg V mem t x val) : ∀ l ∈ cfg.model.leaves, l.Solved t (mem l.id) val :=
  (hs.unique (explicit_sealed h hV) (C59.C59_complete cfg ps ty rank h).complete hs).1

/-- Inputs are functions of time. -/
theorem C85_input (s : SigId) (f : K → K) (hf : ∀ t, (s, .scalar (f t)) ∈ cfg.inputVals t) : Timed cfg ps s f :=
  fun _ _ t _ _ _ hs => hs.input (s, .scalar (f t)) (hf t)

/-- The output of a `Source` is a function of time. -/
theorem C85_source (h : cfg.Sealed ps ty rank) (l : Leaf K) (hl : l ∈ cfg.model.leaves) (g : K → Except Err (Val K)) (s : SigId) (hk : l.kind = .source g s) (f : K → K)
    (hf : ∀ t, g t = .ok (.scalar (f t))) : Timed cfg ps s f := by
  intro V mem t x val hV hs
  have := all_solved h hV hs l hl
  unfold Leaf.Solved at this
  rw [hk] at this
  obtain ⟨v, h1, h2⟩ := this
  rw [hf t] at h1
  cases h1
  exact h2

/-- A function of a function of time is one. -/
theorem C85_function (h : cfg.Sealed ps ty rank) (l : Leaf K) (hl : l ∈ cfg.model.leaves) (g : K → Val K → Except Err (Val K)) (u s : SigId) (hk : l.kind = .siso g u s)
    (f φ : K → K) (hu : Timed cfg ps u f) (hf : ∀ t, g t (.scalar (f t)) = .ok (.scalar (φ t))) : Timed cfg ps s φ := by
  intro V mem t x val hV hs
  have := all_solved h hV hs l hl
  unfold Leaf.Solved at this
  rw [hk] at this
  obtain ⟨v, r, h1, h2, h3⟩ := this
  rw [hu V mem t x val hV hs] at h1
  cases h1
  rw [hf t] at h2
  cases h2
  exact h3

end

section
variable {F : Type} [_root_.Field F] [LinearOrder F] [IsStrictOrderedRing F] [Archimedean F]
attribute [local instance] Arith.exact
variable {cfg : Config F} {ps : List (Wire F)} {ty : SigId → Ty} {rank : BlkId → Nat} {V : Vars} {h t0 : F} {m0 m : Machine F}

/-- The times of the calls: increasing, with gaps of at most `h`. -/
def Dense (h t0 : F) (ts : List F) : Prop := (t0 :: ts).IsChain fun s u => s < u ∧ u - s ≤ h

/-- A simulation of a closed diagram: what holds after `init`, and after each step of at most the length `h`, holds. -/
theorem course (hc : cfg.Sealed ps ty rank) (hme : ∀ p ∈ ps, p.obj.Plain) (he : ∀ st, cfg.stepper = some st → st ∈ [euler, rk4, rkf45])
    {w : World F} (hw : w.New cfg ty) (hlog : w.log = []) {tPrev minH maxH : F} (h0 : 0 < minH) (h1 : minH < maxH)
    (hx : Call.exec cfg (.init t0) { w := w, s := { tPrev := tPrev } } = .ok () m0) {ts : List F} (hts : Dense h t0 ts) (hne : ts ≠ []) (hr : RunsTo cfg minH maxH m0 ts m)
    (Inv : F → (BlkId → Mem F) → Prop) (Good : F → (SigId → Option (Val F)) → Prop)
    (hfirst : ∀ V x val mem', (∀ s, s ∈ V.scalars ++ V.arrays ↔ ∃ p ∈ ps, p.obj.isState = true ∧ p.Gives s) → Committed cfg V w.mem t0 x val mem' → Inv t0 mem')
    (hstep : ∀ V mem s u x val mem', (∀ s, s ∈ V.scalars ++ V.arrays ↔ ∃ p ∈ ps, p.obj.isState = true ∧ p.Gives s) → Inv s mem → s < u → u - s ≤ h →
      Committed cfg V mem u x val mem' → Inv u mem' ∧ Good u val) : Good (ts.getLast hne) m.w.shown := by
  obtain ⟨m0', V, x0, q1, _, q3, _, _, q6, q7⟩ := C69_passage cfg ps ty rank hc hme he w hw hlog tPrev t0 minH maxH h0 h1
  rw [q1] at hx
  cases hx
  have hts' : (t0 :: ts).Pairwise (· < ·) := List.isChain_iff_pairwise.1 (List.IsChain.imp (fun _ _ e => e.1) hts)
  obtain ⟨y, hp⟩ := (q7 ts hts').2 m hr
  have := (hp.carry (fun mem s u x val mem' => hstep V mem s u x val mem' q3) hts (hfirst V _ _ _ q3 q6)).2 hne
  rwa [List.getLast_cons hne] at this

/-- C85, `Memory`: it shows the value its input had at the end of the step before, which was not longer than `h`. -/
theorem C85_memory (cfg : Config F) (ps : List (Wire F)) (ty : SigId → Ty) (rank : BlkId → Nat) (hc : cfg.Sealed ps ty rank) (hme : ∀ p ∈ ps, p.obj.Plain)
    (he : ∀ st, cfg.stepper = some st → st ∈ [euler, rk4, rkf45]) (w : World F) (hw : w.New cfg ty) (hlog : w.log = []) (tPrev t0 minH maxH : F) (h0 : 0 < minH) (h1 : minH < maxH)
    (m0 m : Machine F) (hx : Call.exec cfg (.init t0) { w := w, s := { tPrev := tPrev } } = .ok () m0) (h : F) (ts : List F) (hts : Dense h t0 ts) (hne : ts ≠ [])
    (hr : RunsTo cfg minH maxH m0 ts m) (l : Leaf F) (hl : l ∈ cfg.model.leaves) (x o : SigId) (hk : l.kind = .memory x o) (f : F → F) (hf : Timed cfg ps x f) :
    ∃ s, t0 ≤ s ∧ s < ts.getLast hne ∧ ts.getLast hne - s ≤ h ∧ m.w.shown o = some (.scalar (f s)) := by
  refine course hc hme he hw hlog h0 h1 hx hts hne hr (fun t mem => t0 ≤ t ∧ (mem l.id).value = .scalar (f t)) (fun t val => ∃ s, t0 ≤ s ∧ s < t ∧ t - s ≤ h ∧ val o = some (.scalar (f s)))
    (fun V y val mem' hV hcm => ⟨le_refl _, ?_⟩) (fun V mem s u y val mem' hV hi hsu hh hcm => ⟨⟨hi.1.trans hsu.le, ?_⟩, s, hi.1, hsu, hh, ?_⟩)
  · have := hcm.stored l hl
    unfold Leaf.Stored at this
    rw [hk] at this
    obtain ⟨v, e1, e2⟩ := this
    rw [hf V _ _ _ _ hV hcm.solution] at e1
    cases e1
    rw [e2]
  · have := hcm.stored l hl
    unfold Leaf.Stored at this
    rw [hk] at this
    obtain ⟨v, e1, e2⟩ := this
    rw [hf V _ _ _ _ hV hcm.solution] at e1
    cases e1
    rw [e2]
  · have := all_solved hc hV hcm.solution l hl
    unfold Leaf.Solved at this
    rw [hk] at this
    rw [this, hi.2]

/-- C85, `Derivative`: it shows the slope of the chord over the last step, which was not longer than `h`. -/
theorem C85_derivative (cfg : Config F) (ps : List (Wire F)) (ty : SigId → Ty) (rank : BlkId → Nat) (hc : cfg.Sealed ps ty rank) (hme : ∀ p ∈ ps, p.obj.Plain)
    (he : ∀ st, cfg.stepper = some st → st ∈ [euler, rk4, rkf45]) (w : World F) (hw : w.New cfg ty) (hlog : w.log = []) (tPrev t0 minH maxH : F) (h0 : 0 < minH) (h1 : minH < maxH)
    (m0 m : Machine F) (hx : Call.exec cfg (.init t0) { w := w, s := { tPrev := tPrev } } = .ok () m0) (h : F) (ts : List F) (hts : Dense h t0 ts) (hne : ts ≠ [])
    (hr : RunsTo cfg minH maxH m0 ts m) (l : Leaf F) (hl : l ∈ cfg.model.leaves) (x o : SigId) (hk : l.kind = .derivative x o) (f : F → F) (hf : Timed cfg ps x f) :
    ∃ s, t0 ≤ s ∧ s < ts.getLast hne ∧ ts.getLast hne - s ≤ h ∧ m.w.shown o = some (.scalar ((f (ts.getLast hne) - f s) / (ts.getLast hne - s))) := by
  have store : ∀ {V mem t y val mem'}, (∀ s, s ∈ V.scalars ++ V.arrays ↔ ∃ p ∈ ps, p.obj.isState = true ∧ p.Gives s) → Committed cfg V mem t y val mem' →
      (mem' l.id).firstStep = false ∧ (mem' l.id).t = some t ∧ (mem' l.id).x = some (.scalar (f t)) := by
    intro V mem t y val mem' hV hcm
    have := hcm.stored l hl
    unfold Leaf.Stored at this
    rw [hk] at this
    obtain ⟨v, e1, e2⟩ := this
    rw [hf V _ _ _ _ hV hcm.solution] at e1
    cases e1
    rw [e2]
    exact ⟨rfl, rfl, rfl⟩
  refine course hc hme he hw hlog h0 h1 hx hts hne hr (fun t mem => t0 ≤ t ∧ (mem l.id).firstStep = false ∧ (mem l.id).t = some t ∧ (mem l.id).x = some (.scalar (f t)))
    (fun t val => ∃ s, t0 ≤ s ∧ s < t ∧ t - s ≤ h ∧ val o = some (.scalar ((f t - f s) / (t - s))))
    (fun V y val mem' hV hcm => ⟨le_refl _, store hV hcm⟩) (fun V mem s u y val mem' hV hi hsu hh hcm => ⟨⟨hi.1.trans hsu.le, store hV hcm⟩, s, hi.1, hsu, hh, ?_⟩)
  obtain ⟨-, i1, i2, i3⟩ := hi
  have := all_solved hc hV hcm.solution l hl
  unfold Leaf.Solved at this
  rw [hk] at this
  simp only [i1, Bool.false_eq_true, if_false] at this
  obtain ⟨t1, e1, e2⟩ := this
  rw [i2] at e1
  cases e1
  have hne : (s ==. u) = false := decide_eq_false hsu.ne
  simp only [hne, Bool.false_eq_true, if_false] at e2
  obtain ⟨v, v0, r, e3, e4, e5, e6⟩ := e2
  rw [hf V _ _ _ _ hV hcm.solution] at e3
  rw [i3] at e4
  cases e3; cases e4
  rw [e6]
  cases e5
  rfl

/-- The record of a `Delay` at time `t`: values of `f`, at times that follow each other closely up to `t`, without those that have been forgotten. -/
structure Recorded (f : F → F) (life h t0 t : F) (mem : Mem F) : Prop where
  xs : mem.xs = mem.ts.map fun s => .scalar (f s)
  sorted : mem.ts.Pairwise (· < ·)
  gaps : ∀ (i : Nat) (a b : F), mem.ts[i]? = some a → mem.ts[i + 1]? = some b → b - a ≤ h
  last : mem.ts.getLast? = some t
  first : ∀ s, mem.ts.head? = some s → t0 ≤ s ∧ (s = t0 ∨ s < t - life + h)

theorem recorded_first {f : F → F} {life h t : F} {mem mem' : Mem F} {k : Nat} {v : Val F} (he : mem.ts = []) (hx : mem.xs.length = mem.ts.length) (hv : v = .scalar (f t))
    (h2 : mem' = { mem with ts := mem.ts.drop k ++ [t], xs := mem.xs.drop k ++ [v] }) : Recorded f life h t t mem' := by
  have hx : mem.xs = [] := by rw [he] at hx; exact List.length_eq_zero_iff.1 hx
  subst h2 hv
  rw [he, hx]
  simp only [List.drop_nil, List.nil_append]
  refine ⟨rfl, List.pairwise_singleton _ _, fun i a b h1 h2 => ?_, rfl, fun s e => ?_⟩
  · simp at h2
  · cases e; exact ⟨le_refl _, .inl rfl⟩

theorem recorded_next {f : F → F} {life h t0 s u : F} {mem mem' : Mem F} {k : Nat} {v : Val F} (hr : Recorded f life h t0 s mem) (hsu : s < u) (hh : u - s ≤ h)
    (hk : k ≤ mem.ts.length) (hb : ∀ (j : Nat) (e : F), j < k → mem.ts[j]? = some e → e < u - life) (hv : v = .scalar (f u))
    (h2 : mem' = { mem with ts := mem.ts.drop k ++ [u], xs := mem.xs.drop k ++ [v] }) : Recorded f life h t0 u mem' := by
  subst h2 hv
  have hlast : ∀ e ∈ mem.ts, e ≤ s := by
    intro e he
    obtain ⟨i, hi, rfl⟩ := List.mem_iff_getElem.1 he
    have hl := hr.last
    rw [List.getLast?_eq_getElem?, List.getElem?_eq_some_iff] at hl
    obtain ⟨hn, hl⟩ := hl
    rcases Nat.lt_or_ge i (mem.ts.length - 1) with g | g
    · rw [← hl]
      exact (List.pairwise_iff_getElem.1 hr.sorted i _ hi hn g).le
    · have : i = mem.ts.length - 1 := by omega
      subst this
      exact hl.le
  have hd : mem.ts.drop k ++ [u] = (mem.ts ++ [u]).drop k := by rw [List.drop_append_of_le_length hk]
  have hx : mem.xs.drop k ++ [.scalar (f u)] = (mem.ts.drop k ++ [u]).map fun s => .scalar (f s) := by rw [hr.xs]; simp
  have hp : (mem.ts ++ [u]).Pairwise (· < ·) := by
    rw [List.pairwise_append]
    exact ⟨hr.sorted, List.pairwise_singleton _ _, fun a ha b hb => by rw [List.mem_singleton.1 hb]; exact (hlast a ha).trans_lt hsu⟩
  have hg : ∀ (i : Nat) (a b : F), (mem.ts ++ [u])[i]? = some a → (mem.ts ++ [u])[i + 1]? = some b → b - a ≤ h := by
    intro i a b h1 h2
    rcases Nat.lt_or_ge (i + 1) mem.ts.length with g | g
    · rw [List.getElem?_append_left (by omega)] at h1 h2
      exact hr.gaps i a b h1 h2
    · obtain ⟨g2, e2⟩ := List.getElem?_eq_some_iff.1 h2
      simp only [List.length_append, List.length_singleton] at g2
      have hi : i + 1 = mem.ts.length := by omega
      rw [List.getElem?_append_left (by omega)] at h1
      have hl := hr.last
      rw [List.getLast?_eq_getElem?, show mem.ts.length - 1 = i by omega, h1] at hl
      cases hl
      rw [← e2, List.getElem_append_right (by omega)]
      simpa using hh
  refine ⟨hx, ?_, fun i a b h1 h2 => ?_, by simp, fun e he => ?_⟩
  · show (mem.ts.drop k ++ [u]).Pairwise (· < ·)
    rw [hd]
    exact hp.drop
  · have h1 : (mem.ts.drop k ++ [u])[i]? = some a := h1
    have h2 : (mem.ts.drop k ++ [u])[i + 1]? = some b := h2
    rw [hd, List.getElem?_drop] at h1 h2
    exact hg (k + i) a b h1 h2
  · have he : (mem.ts.drop k ++ [u]).head? = some e := he
    rw [hd, List.head?_drop] at he
    cases k with
    | zero =>
      cases hts : mem.ts with
      | nil => have := hr.last; rw [hts] at this; cases this
      | cons s0 rest =>
        rw [hts] at he
        simp only [List.cons_append, List.getElem?_cons_zero, Option.some.injEq] at he
        subst he
        obtain ⟨g1, g2⟩ := hr.first s0 (by rw [hts]; rfl)
        exact ⟨g1, g2.imp_right fun g => by linarith⟩
    | succ k =>
      obtain ⟨gk, ek⟩ := List.getElem?_eq_some_iff.1 (show mem.ts[k]? = some (mem.ts[k]'(by omega)) from List.getElem?_eq_getElem _)
      have g1 := hg k _ e (by rw [List.getElem?_append_left (by omega)]; exact List.getElem?_eq_getElem (by omega)) he
      have g2 := hb k _ (by omega) (List.getElem?_eq_getElem (by omega))
      have g3 : mem.ts[k] < e := by
        obtain ⟨ge, ee⟩ := List.getElem?_eq_some_iff.1 he
        have := List.pairwise_iff_getElem.1 hp k (k + 1) (by simp; omega) ge (by omega)
        rw [ee, List.getElem_append_left (by omega)] at this
        exact this
      have g4 : t0 ≤ mem.ts[k] := by
        have hp0 : 0 < mem.ts.length := by omega
        refine ((hr.first (mem.ts[0]'hp0) (by rw [List.head?_eq_getElem?]; exact List.getElem?_eq_getElem hp0)).1).trans ?_
        rcases Nat.eq_zero_or_pos k with rfl | g
        · exact le_refl _
        · exact (List.pairwise_iff_getElem.1 hr.sorted 0 k hp0 (by omega) g).le
      exact ⟨g4.trans g3.le, .inr (by linarith)⟩

/-- C85, `Delay`: if the delay is at least the largest gap `h` of the times and at most the lifespan less `h`, it shows the initial value until the delayed time is
after the beginning, and from then on a value on a chord of the function, over an interval not longer than `h`. -/
theorem C85_delay (cfg : Config F) (ps : List (Wire F)) (ty : SigId → Ty) (rank : BlkId → Nat) (hc : cfg.Sealed ps ty rank) (hme : ∀ p ∈ ps, p.obj.Plain)
    (he : ∀ st, cfg.stepper = some st → st ∈ [euler, rk4, rkf45]) (w : World F) (hw : w.New cfg ty) (hlog : w.log = []) (tPrev t0 minH maxH : F) (h0 : 0 < minH) (h1 : minH < maxH)
    (m0 m : Machine F) (hx : Call.exec cfg (.init t0) { w := w, s := { tPrev := tPrev } } = .ok () m0) (h : F) (ts : List F) (hts : Dense h t0 ts) (hne : ts ≠ [])
    (hr : RunsTo cfg minH maxH m0 ts m) (l : Leaf F) (hl : l ∈ cfg.model.leaves) (life : F) (x d i o : SigId) (hk : l.kind = .delay life x d i o) (f δ : F → F)
    (hf : Timed cfg ps x f) (hd : Timed cfg ps d δ) (hlo : ∀ t, h ≤ δ t) (hhi : ∀ t, δ t ≤ life - h) :
    (ts.getLast hne - δ (ts.getLast hne) ≤ t0 → m.w.shown o = m.w.shown i) ∧
    (t0 < ts.getLast hne - δ (ts.getLast hne) →
      ∃ z, m.w.shown o = some (.scalar z) ∧ OnChord f t0 (ts.getLast hne) h (ts.getLast hne - δ (ts.getLast hne)) z) := by
  refine course hc hme he hw hlog h0 h1 hx hts hne hr (fun t mem => Recorded f life h t0 t (mem l.id))
    (fun t val => (t - δ t ≤ t0 → val o = val i) ∧ (t0 < t - δ t → ∃ z, val o = some (.scalar z) ∧ OnChord f t0 t h (t - δ t) z))
    (fun V y val mem' hV hcm => ?_) (fun V mem s u y val mem' hV hi hsu hh hcm => ⟨?_, ?_⟩)
  · have := hcm.stored l hl
    unfold Leaf.Stored at this
    rw [hk] at this
    obtain ⟨k, v, e1, _, _, _, e5⟩ := this
    rw [hf V _ _ _ _ hV hcm.solution] at e1
    have hm := hw.fine.members l hl
    unfold Leaf.Members at hm
    rw [hk] at hm
    exact recorded_first (hw.record l hl (by unfold Leaf.isDelay; rw [hk])) hm.2.symm (Option.some.inj e1).symm e5
  · have := hcm.stored l hl
    unfold Leaf.Stored at this
    rw [hk] at this
    obtain ⟨k, v, e1, e2, _, e4, e5⟩ := this
    rw [hf V _ _ _ _ hV hcm.solution] at e1
    exact recorded_next hi hsu hh e4 (fun j e hj hje => not_le.1 (of_decide_eq_false (e2 j e hj hje))) (Option.some.inj e1).symm e5
  · have := all_solved hc hV hcm.solution l hl
    unfold Leaf.Solved at this
    rw [hk] at this
    obtain ⟨s0, rest, hts⟩ : ∃ s0 rest, (mem l.id).ts = s0 :: rest := by
      cases hts : (mem l.id).ts with
      | nil => have := hi.last; rw [hts] at this; cases this
      | cons a b => exact ⟨a, b, rfl⟩
    simp only [] at this
    rw [if_neg (by rw [hts]; simp)] at this
    obtain ⟨dv, r, e1, e2, init, e3, e4⟩ := this
    rw [hd V _ _ _ _ hV hcm.solution] at e1
    cases e1
    obtain ⟨b1, b2⟩ := hi.first s0 (by rw [hts]; rfl)
    have l1 := hlo u
    have l2 := hhi u
    have hmem : ∀ e ∈ (mem l.id).ts, t0 ≤ e := by
      intro e he
      rw [hts] at he
      have hsd := hi.sorted
      rw [hts] at hsd
      rcases List.mem_cons.1 he with rfl | he
      · exact b1
      · exact b1.trans (List.rel_of_pairwise_cons hsd he).le
    have hend : ∀ e ∈ (mem l.id).ts, e ≤ s := by
      intro e he
      obtain ⟨j, hj, rfl⟩ := List.mem_iff_getElem.1 he
      have hl := hi.last
      rw [List.getLast?_eq_getElem?, List.getElem?_eq_some_iff] at hl
      obtain ⟨hn, hl⟩ := hl
      rcases Nat.lt_or_ge j ((mem l.id).ts.length - 1) with g | g
      · rw [← hl]
        exact (List.pairwise_iff_getElem.1 hi.sorted j _ hj hn g).le
      · have : j = (mem l.id).ts.length - 1 := by omega
        subst this
        exact hl.le
    rw [e2]
    have hs0 : u - δ u ≤ s0 ↔ u - δ u ≤ t0 := by
      constructor
      · intro g
        rcases b2 with b2 | b2
        · rw [← b2]; exact g
        · linarith
      · exact fun g => g.trans b1
    cases e3 with
    | before g1 g2 =>
      have hval := e4 ⟨_, _, g1, g2⟩
      rw [hts] at g1
      cases g1
      have g2 : u - δ u ≤ s0 := of_decide_eq_true g2
      exact ⟨fun _ => hval.symm, fun g => absurd (hs0.1 g2) (not_le.2 g)⟩
    | @after ta tn rest2 v2 g1 g2 g3 g4 g5 =>
      rw [hts] at g1
      cases g1
      have g2 : ¬ u - δ u ≤ s0 := of_decide_eq_false g2
      have g4 : tn ≤ u - δ u := of_decide_eq_true g4
      rw [hi.last] at g3
      cases g3
      have hq : u - δ u = s := le_antisymm (by linarith) g4
      refine ⟨fun g => absurd (hs0.2 g) g2, fun g => ?_⟩
      have hl := hi.last
      rw [List.getLast?_eq_getElem?, List.getElem?_eq_some_iff] at hl
      obtain ⟨hn, hl⟩ := hl
      have h2 : 1 < (mem l.id).ts.length := by
        rw [hts]
        rcases rest with _ | ⟨r1, rr⟩
        · exfalso
          have hl2 := hi.last
          rw [hts] at hl2
          simp only [List.getLast?_singleton, Option.some.injEq] at hl2
          rw [hq, hl2] at g2
          exact g2 (le_refl _)
        · simp
      have hv : r = .scalar (f s) := by
        rw [hi.xs, List.getLast?_map, hi.last] at g5
        exact (Option.some.inj g5).symm
      subst hv
      refine ⟨f s, rfl, (mem l.id).ts[(mem l.id).ts.length - 2]'(by omega), s, hmem _ (List.getElem_mem _), ?_, hq.le, hsu.le, ?_, ?_⟩
      · rw [hq, ← hl]
        exact List.pairwise_iff_getElem.1 hi.sorted _ _ (by omega) hn (by omega)
      · refine hi.gaps ((mem l.id).ts.length - 2) _ _ (List.getElem?_eq_getElem (by omega)) ?_
        rw [show (mem l.id).ts.length - 2 + 1 = (mem l.id).ts.length - 1 by omega, List.getElem?_eq_getElem hn, hl]
      · have hlt : (mem l.id).ts[(mem l.id).ts.length - 2]'(by omega) < s := by
          rw [← hl]
          exact List.pairwise_iff_getElem.1 hi.sorted _ _ (by omega) hn (by omega)
        rw [hq]
        have : s - (mem l.id).ts[(mem l.id).ts.length - 2]'(by omega) ≠ 0 := (sub_pos.2 hlt).ne'
        rw [div_mul_cancel₀ _ this]
        ring
    | @between ta tb tc tn rest2 j a b v2 g1 g2 g3 g4 g5 g6 g7 g8 g9 g10 g11 =>
      have g2' : ¬ u - δ u ≤ s0 := by rw [hts] at g1; cases g1; exact of_decide_eq_false g2
      refine ⟨fun g => absurd (hs0.2 g) g2', fun g => ?_⟩
      have k1 : tb < u - δ u := not_le.1 (of_decide_eq_false (g5 j tb (le_refl _) g6))
      have k2 : u - δ u ≤ tc := of_decide_eq_true g8
      rw [hi.xs, List.getElem?_map, g6] at g9
      rw [hi.xs, List.getElem?_map, g7] at g10
      cases g9
      cases g10
      cases g11
      refine ⟨_, rfl, tb, tc, hmem _ (List.mem_of_getElem? g6), k1, k2, (hend _ (List.mem_of_getElem? g7)).trans hsu.le, hi.gaps j _ _ g6 g7, ?_⟩
      show ((f tc - f tb) * (u - δ u - tb)) / (tc - tb) + f tb = _
      ring

end

/-! ## Real functions -/

noncomputable section
open Set
attribute [local instance] Arith.exact

theorem first_le {h t0 : ℝ} {ts : List ℝ} (hts : Dense h t0 ts) (hne : ts ≠ []) : t0 ≤ ts.getLast hne := by
  have := List.isChain_iff_pairwise.1 (List.IsChain.imp (fun _ _ e => e.1) hts : (t0 :: ts).IsChain (· < ·))
  exact (List.rel_of_pairwise_cons this (List.getLast_mem hne)).le

/-- C85, `Memory` of a Lipschitz function: the output is wrong by at most the constant times the largest gap. -/
theorem C85_memory_near (cfg : Config ℝ) (ps : List (Wire ℝ)) (ty : SigId → Ty) (rank : BlkId → Nat) (hc : cfg.Sealed ps ty rank) (hme : ∀ p ∈ ps, p.obj.Plain)
    (he : ∀ st, cfg.stepper = some st → st ∈ [euler, rk4, rkf45]) (w : World ℝ) (hw : w.New cfg ty) (hlog : w.log = []) (tPrev t0 minH maxH : ℝ) (h0 : 0 < minH) (h1 : minH < maxH)
    (m0 m : Machine ℝ) (hx : Call.exec cfg (.init t0) { w := w, s := { tPrev := tPrev } } = .ok () m0) (h : ℝ) (ts : List ℝ) (hts : Dense h t0 ts) (hne : ts ≠ [])
    (hr : RunsTo cfg minH maxH m0 ts m) (l : Leaf ℝ) (hl : l ∈ cfg.model.leaves) (x o : SigId) (hk : l.kind = .memory x o) (f : ℝ → ℝ) (hf : Timed cfg ps x f)
    (L : ℝ) (hL : ∀ x ∈ Icc t0 (ts.getLast hne), ∀ y ∈ Icc t0 (ts.getLast hne), |f x - f y| ≤ L * |x - y|) (hL0 : 0 ≤ L) :
    ∃ z, m.w.shown o = some (.scalar z) ∧ |z - f (ts.getLast hne)| ≤ L * h := by
  obtain ⟨s, k1, k2, k3, k4⟩ := C85_memory cfg ps ty rank hc hme he w hw hlog tPrev t0 minH maxH h0 h1 m0 m hx h ts hts hne hr l hl x o hk f hf
  refine ⟨_, k4, (hL s ⟨k1, k2.le⟩ _ ⟨k1.trans k2.le, le_refl _⟩).trans (mul_le_mul_of_nonneg_left ?_ hL0)⟩
  rw [abs_of_neg (sub_neg.2 k2)]
  linarith

/-- C85, `Derivative` of a function with a Lipschitz derivative: the output is wrong by at most the constant times half the largest gap. -/
theorem C85_derivative_near (cfg : Config ℝ) (ps : List (Wire ℝ)) (ty : SigId → Ty) (rank : BlkId → Nat) (hc : cfg.Sealed ps ty rank) (hme : ∀ p ∈ ps, p.obj.Plain)
    (he : ∀ st, cfg.stepper = some st → st ∈ [euler, rk4, rkf45]) (w : World ℝ) (hw : w.New cfg ty) (hlog : w.log = []) (tPrev t0 minH maxH : ℝ) (h0 : 0 < minH) (h1 : minH < maxH)
    (m0 m : Machine ℝ) (hx : Call.exec cfg (.init t0) { w := w, s := { tPrev := tPrev } } = .ok () m0) (h : ℝ) (ts : List ℝ) (hts : Dense h t0 ts) (hne : ts ≠ [])
    (hr : RunsTo cfg minH maxH m0 ts m) (l : Leaf ℝ) (hl : l ∈ cfg.model.leaves) (x o : SigId) (hk : l.kind = .derivative x o) (f f' : ℝ → ℝ) (hf : Timed cfg ps x f)
    (hd : ∀ x ∈ Icc t0 (ts.getLast hne), HasDerivWithinAt f (f' x) (Icc t0 (ts.getLast hne)) x)
    (M : ℝ) (hM : ∀ x ∈ Icc t0 (ts.getLast hne), ∀ y ∈ Icc t0 (ts.getLast hne), |f' x - f' y| ≤ M * |x - y|) (hM0 : 0 ≤ M) :
    ∃ z, m.w.shown o = some (.scalar z) ∧ |z - f' (ts.getLast hne)| ≤ M / 2 * h := by
  obtain ⟨s, k1, k2, k3, k4⟩ := C85_derivative cfg ps ty rank hc hme he w hw hlog tPrev t0 minH maxH h0 h1 m0 m hx h ts hts hne hr l hl x o hk f hf
  exact ⟨_, k4, (Chord.slope hd hM ⟨k1, k2.le⟩ ⟨k1.trans k2.le, le_refl _⟩ k2).trans (mul_le_mul_of_nonneg_left k3 (by linarith))⟩

/-- C85, `Delay` of a function with a Lipschitz derivative: after the delayed time has passed the beginning, the output is wrong by at most an eighth of the constant times
the square of the largest gap. -/
theorem C85_delay_near (cfg : Config ℝ) (ps : List (Wire ℝ)) (ty : SigId → Ty) (rank : BlkId → Nat) (hc : cfg.Sealed ps ty rank) (hme : ∀ p ∈ ps, p.obj.Plain)
    (he : ∀ st, cfg.stepper = some st → st ∈ [euler, rk4, rkf45]) (w : World ℝ) (hw : w.New cfg ty) (hlog : w.log = []) (tPrev t0 minH maxH : ℝ) (h0 : 0 < minH) (h1 : minH < maxH)
    (m0 m : Machine ℝ) (hx : Call.exec cfg (.init t0) { w := w, s := { tPrev := tPrev } } = .ok () m0) (h : ℝ) (ts : List ℝ) (hts : Dense h t0 ts) (hne : ts ≠ [])
    (hr : RunsTo cfg minH maxH m0 ts m) (l : Leaf ℝ) (hl : l ∈ cfg.model.leaves) (life : ℝ) (x d i o : SigId) (hk : l.kind = .delay life x d i o) (f f' δ : ℝ → ℝ)
    (hf : Timed cfg ps x f) (hδ : Timed cfg ps d δ) (hlo : ∀ t, h ≤ δ t) (hhi : ∀ t, δ t ≤ life - h)
    (hd : ∀ x ∈ Icc t0 (ts.getLast hne), HasDerivWithinAt f (f' x) (Icc t0 (ts.getLast hne)) x)
    (M : ℝ) (hM : ∀ x ∈ Icc t0 (ts.getLast hne), ∀ y ∈ Icc t0 (ts.getLast hne), |f' x - f' y| ≤ M * |x - y|) (hM0 : 0 ≤ M)
    (hq : t0 < ts.getLast hne - δ (ts.getLast hne)) :
    ∃ z, m.w.shown o = some (.scalar z) ∧ |z - f (ts.getLast hne - δ (ts.getLast hne))| ≤ M / 8 * h ^ 2 := by
  obtain ⟨z, k1, a, b, k2, k3, k4, k5, k6, k7⟩ := (C85_delay cfg ps ty rank hc hme he w hw hlog tPrev t0 minH maxH h0 h1 m0 m hx h ts hts hne hr l hl life x d i o hk f δ hf hδ hlo hhi).2 hq
  refine ⟨z, k1, ?_⟩
  rw [k7]
  refine (Chord.chord hd hM hM0 ⟨k2, (k3.le.trans k4).trans k5⟩ ⟨k2.trans (k3.le.trans k4), k5⟩ k3 k4).trans (mul_le_mul_of_nonneg_left ?_ (by linarith))
  exact pow_le_pow_left₀ (by linarith) k6 2

/-! ## Example -/

def late : Leaf ℝ := { id := 1, links := [(0, Demo.rq), (1, Demo.rq), (2, Demo.rq), (3, Demo.ot)], kind := .delay 10 0 1 2 3 }
def held : Leaf ℝ := { id := 2, links := [(0, Demo.inp), (4, Demo.ot)], kind := .memory 0 4 }
def rate : Leaf ℝ := { id := 3, links := [(0, Demo.rq), (5, Demo.ot)], kind := .derivative 0 5 }

/-- The sine of the time (signal 0) is delayed by 1/2 (signal 1), with the value 7 (signal 2) before; and it goes to a `Memory` and a `Derivative`. -/
def sines (st : Strategy) : Config ℝ where
  dbg := true
  model := .sub 100 [] [.leaf rate, .leaf late, .leaf held]
  deriv _ := none
  inputs := none
  modelInput t := ([(1, .scalar (1/2)), (2, .scalar 7), (0, .scalar (Real.sin t))], none)
  stepper := none
  strategy := st
  hash := id

def wired : List (Wire ℝ) :=
  [⟨1, .delay .double 10, [C58.sc "in" 0, C58.sc "delay" 1, C58.sc "initial" 2], [C58.sc "out" 3]⟩, ⟨2, .memory .double, [C58.sc "in" 0], [C58.sc "out" 4]⟩,
    ⟨3, .derivative .double, [C58.sc "in" 0], [C58.sc "out" 5]⟩]

def fresh : World ℝ where
  sig _ := { ty := .scalar }
  mem _ := { value := .scalar 9 }
  done _ := false
  log := []

theorem leaves_eq (st : Strategy) : (sines st).model.leaves = [rate, late, held] := by simp [sines, Block.leaves, leavesL]

theorem closed (st : Strategy) (hst : st ≠ .reuse) : (sines st).Sealed wired (fun _ => .scalar) (fun b => b) := by
  have hg : ∀ p ∈ wired, ∀ i, p.Gives i → (p.id, i) ∈ [((1 : Nat), (3 : Nat)), (2, 4), (3, 5)] := by
    intro p hp i hi
    obtain ⟨k, t, hi⟩ := hi
    simp only [wired, List.mem_cons, List.not_mem_nil, or_false] at hp
    rcases hp with rfl | rfl | rfl <;> (simp only [C58.sc, List.mem_cons, List.not_mem_nil, or_false] at hi; cases hi; decide)
  have ht : ∀ p ∈ wired, ∀ i, p.Takes i → i ∈ [1, 2, 0] := by
    intro p hp i hi
    obtain ⟨k, t, hi⟩ := hi
    simp only [wired, List.mem_cons, List.not_mem_nil, or_false] at hp
    rcases hp with rfl | rfl | rfl
    · simp only [C58.sc, List.mem_cons, List.not_mem_nil, or_false] at hi
      rcases hi with hi | hi | hi <;> cases hi <;> decide
    · simp only [C58.sc, List.mem_cons, List.not_mem_nil, or_false] at hi
      cases hi; decide
    · simp only [C58.sc, List.mem_cons, List.not_mem_nil, or_false] at hi
      cases hi; decide
  have hk : ∀ t, (sines st).inputKeys t = [1, 2, 0] := fun t => rfl
  have apart : ∀ a ∈ [((1 : Nat), (3 : Nat)), (2, 4), (3, 5)], ¬ a.2 ∈ [1, 2, 0] := by decide
  exact {
    dbg := rfl
    assembled := ⟨[late, held, rate], by with_unfolding_all rfl, by
      rw [leaves_eq]
      exact (List.perm_append_comm (l₁ := [rate]) (l₂ := [late, held]))⟩
    proper := by
      have : (sines st).model.ids = [100, 3, 1, 2] := by simp [sines, late, held, rate, Block.ids, Block.all, allL, Block.id]
      unfold Block.Proper
      rw [this]
      decide
    hash := fun _ => .refl _
    sane := by
      intro p hp
      have ha : ∀ es : Entries, (∀ q ∈ es, ∃ k i, q = C58.sc k i) → Agrees (fun _ => .scalar) es ∧ Sized 1 es := by
        intro es hes
        refine ⟨fun q hq i t e => ?_, fun q hq i m e => ?_⟩ <;> (obtain ⟨k, j, rfl⟩ := hes q hq; cases e)
        rfl
      have h1 : ∀ a i, ∀ q ∈ [C58.sc a i], ∃ k i, q = C58.sc k i := fun a i q hq => by
        rw [List.mem_singleton] at hq; exact ⟨_, _, hq⟩
      have h3 : ∀ q ∈ [C58.sc "in" 0, C58.sc "delay" 1, C58.sc "initial" 2], ∃ k i, q = C58.sc k i := fun q hq => by
        simp only [List.mem_cons, List.not_mem_nil, or_false] at hq
        rcases hq with rfl | rfl | rfl <;> exact ⟨_, _, rfl⟩
      simp only [wired, List.mem_cons, List.not_mem_nil, or_false] at hp
      rcases hp with rfl | rfl | rfl
      · exact ⟨(ha _ h3).1, (ha _ (h1 _ _)).1, .inl ⟨1, Nat.one_pos, trivial, trivial, (ha _ h3).2, (ha _ (h1 _ _)).2⟩⟩
      · exact ⟨(ha _ (h1 _ _)).1, (ha _ (h1 _ _)).1, .inl ⟨1, Nat.one_pos, trivial, trivial, (ha _ (h1 _ _)).2, (ha _ (h1 _ _)).2⟩⟩
      · exact ⟨(ha _ (h1 _ _)).1, (ha _ (h1 _ _)).1, .inl ⟨1, Nat.one_pos, trivial, trivial, (ha _ (h1 _ _)).2, (ha _ (h1 _ _)).2⟩⟩
    once := by
      intro p hp q hq i h1 h2
      have key : ∀ a ∈ [((1 : Nat), (3 : Nat)), (2, 4), (3, 5)], ∀ b ∈ [((1 : Nat), (3 : Nat)), (2, 4), (3, 5)], a.2 = b.2 → a.1 = b.1 := by decide
      exact key _ (hg p hp i h1) _ (hg q hq i h2) rfl
    provided := fun p hp i hi => .inl fun t => by rw [hk]; exact ht p hp i hi
    loops := by
      intro p hp i hn q hq hgi
      have G := apart _ (hg q hq i hgi)
      have T := ht p hp i
      simp only [wired, List.mem_cons, List.not_mem_nil, or_false] at hp
      rcases hp with rfl | rfl | rfl
      · exact absurd (T hn) G
      · exact hn.elim
      · exact absurd (T hn) G
    inputs := fun f e => by cases e
    modelInput := ⟨fun t => ⟨fun p hp => by
      simp only [sines, List.mem_cons, List.not_mem_nil, or_false] at hp
      rcases hp with rfl | rfl | rfl <;> exact ⟨rfl, fun _ => rfl⟩, fun e h => (by cases h)⟩, fun _ => rfl⟩
    inputOnce := fun t => by rw [hk]; decide
    inputFree := fun t s hs => by
      rw [hk] at hs
      refine ⟨⟨_, .head _, ?_⟩, fun p hp hgi => apart _ (hg p hp s hgi) hs⟩
      simp only [List.mem_cons, List.not_mem_nil, or_false] at hs
      rcases hs with rfl | rfl | rfl
      · exact ⟨str "delay", .scalar, .tail _ (.head _)⟩
      · exact ⟨str "initial", .scalar, .tail _ (.tail _ (.head _))⟩
      · exact ⟨str "in", .scalar, .head _⟩
    stepper := fun st e => by cases e
    stepped := by
      rintro ⟨p, hp, e⟩
      simp only [wired, List.mem_cons, List.not_mem_nil, or_false] at hp
      rcases hp with rfl | rfl | rfl <;> cases e
    reuse := fun e => (hst e).elim }

theorem new (st : Strategy) : fresh.New (sines st) (fun _ => .scalar) where
  fine := {
    types := fun _ => rfl
    cells := fun _ => ⟨fun e => (by cases e), fun v e => (by cases e)⟩
    members := by
      intro l hl
      rw [leaves_eq] at hl
      simp only [List.mem_cons, List.not_mem_nil, or_false] at hl
      rcases hl with rfl | rfl | rfl
      · exact ⟨⟨rfl, fun _ => rfl⟩, fun e => (by cases e), fun v e => (by cases e)⟩
      · exact ⟨fun v hv => (by cases hv), rfl⟩
      · exact ⟨rfl, fun _ => rfl⟩ }
  done := fun _ => rfl
  record := fun _ _ _ => rfl

theorem gently {f f' : ℝ → ℝ} (hd : ∀ x, HasDerivAt f (f' x) x) (h : ∀ x, |f' x| ≤ 1) (x y : ℝ) : |f x - f y| ≤ 1 * |x - y| :=
  Convex.norm_image_sub_le_of_norm_hasDerivWithin_le (s := univ) (fun z _ => (hd z).hasDerivWithinAt) (fun z _ => h z) convex_univ (mem_univ y) (mem_univ x)

/-- The diagram can be simulated at any times with gaps of at most 1/2, and then shows the sine of the time before, the cosine up to a quarter of the gap, and the sine of half a
second ago up to an eighth of the square of the gap. -/
example (st : Strategy) (hst : st ≠ .reuse) (h : ℝ) (hh : h ≤ 1/2) (ts : List ℝ) (hts : Dense h 0 ts) (hne : ts ≠ []) (hlast : 1/2 < ts.getLast hne) :
    ∃ m0 m, Call.exec (sines st) (.init 0) { w := fresh, s := { tPrev := 0 } } = .ok () m0 ∧ RunsTo (sines st) 1 2 m0 ts m ∧
      ∃ x y z, m.w.shown 4 = some (.scalar x) ∧ |x - Real.sin (ts.getLast hne)| ≤ 1 * h ∧ m.w.shown 5 = some (.scalar y) ∧ |y - Real.cos (ts.getLast hne)| ≤ 1 / 2 * h ∧
        m.w.shown 3 = some (.scalar z) ∧ |z - Real.sin (ts.getLast hne - 1/2)| ≤ 1 / 8 * h ^ 2 := by
  have hpl : ∀ p ∈ wired, p.obj.Plain := by simp [wired, Make.Plain]
  have hss : ∀ stp, (sines st).stepper = some stp → stp ∈ [euler, rk4, rkf45] := fun stp e => by cases e
  obtain ⟨m0, V, x0, g1, _, _, _, _, _, g⟩ := C69_passage (sines st) wired _ _ (closed st hst) hpl hss fresh (new st) rfl 0 0 1 2 (by norm_num) (by norm_num)
  obtain ⟨m, hm⟩ := (g ts (List.isChain_iff_pairwise.1 (List.IsChain.imp (fun _ _ e => e.1) hts))).1
  have hin : Timed (sines st) wired 0 Real.sin := C85_input 0 Real.sin fun t => by
    show _ ∈ [((1 : Nat), Val.scalar (1/2)), (2, .scalar 7), (0, .scalar (Real.sin t))]
    simp
  have hde : Timed (sines st) wired 1 (fun _ => 1/2) := C85_input 1 _ fun t => by
    show _ ∈ [((1 : Nat), Val.scalar (1/2)), (2, .scalar 7), (0, .scalar (Real.sin t))]
    simp
  have ls : ∀ x y : ℝ, |Real.sin x - Real.sin y| ≤ 1 * |x - y| := gently Real.hasDerivAt_sin Real.abs_cos_le_one
  have lc : ∀ x y : ℝ, |Real.cos x - Real.cos y| ≤ 1 * |x - y| := gently Real.hasDerivAt_cos fun x => by rw [abs_neg]; exact Real.abs_sin_le_one x
  obtain ⟨x, x1, x2⟩ := C85_memory_near (sines st) wired _ _ (closed st hst) hpl hss fresh (new st) rfl 0 0 1 2 (by norm_num) (by norm_num) m0 m g1 h ts hts hne hm held
    (by rw [leaves_eq]; simp) 0 4 rfl Real.sin hin 1 (fun x _ y _ => ls x y) zero_le_one
  obtain ⟨y, y1, y2⟩ := C85_derivative_near (sines st) wired _ _ (closed st hst) hpl hss fresh (new st) rfl 0 0 1 2 (by norm_num) (by norm_num) m0 m g1 h ts hts hne hm rate
    (by rw [leaves_eq]; simp) 0 5 rfl Real.sin Real.cos hin (fun x _ => (Real.hasDerivAt_sin x).hasDerivWithinAt) 1 (fun x _ y _ => lc x y) zero_le_one
  obtain ⟨z, z1, z2⟩ := C85_delay_near (sines st) wired _ _ (closed st hst) hpl hss fresh (new st) rfl 0 0 1 2 (by norm_num) (by norm_num) m0 m g1 h ts hts hne hm late
    (by rw [leaves_eq]; simp) 10 0 1 2 3 rfl Real.sin Real.cos (fun _ => 1/2) hin hde (fun _ => hh) (fun _ => by linarith)
    (fun x _ => (Real.hasDerivAt_sin x).hasDerivWithinAt) 1 (fun x _ y _ => lc x y) zero_le_one (by linarith)
  exact ⟨m0, m, g1, hm, x, y, z, x1, x2, y1, y2, z1, z2⟩

/-- There are such times. -/
example : Dense (1/4 : ℝ) 0 [1/4, 1/2, 3/4] ∧ (1/2 : ℝ) < [(1/4 : ℝ), 1/2, 3/4].getLast (by simp) := by
  constructor
  · unfold Dense
    simp only [List.isChain_cons_cons, List.isChain_singleton, and_true]
    norm_num
  · norm_num

end
end Pooya.C85
