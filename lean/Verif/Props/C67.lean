import Verif.Proof.Session
import Verif.Props.C66

/-! # C67: what the main programs of the samples record converges to the course the drawing describes -/

namespace Pooya.C67

open Pooya Set

set_option linter.unusedSectionVars false

attribute [local instance] Arith.exact

theorem take_last {t0 : ℝ} {ts : List ℝ} {j : Nat} {t : ℝ} (h : (t0 :: ts)[j]? = some t) : (t0 :: ts.take j).getLast (by simp) = t := by
  induction ts generalizing t0 j with
  | nil =>
    cases j with
    | zero => simpa using h
    | succ j => simp at h
  | cons u us ih =>
    cases j with
    | zero => simpa using h
    | succ j =>
      rw [List.getElem?_cons_succ] at h
      rw [List.take_succ_cons, List.getLast_cons (by simp)]
      exact ih h

theorem le_last {t0 : ℝ} {ts : List ℝ} (h : (t0 :: ts).Pairwise (· < ·)) {t : ℝ} (ht : t ∈ t0 :: ts) : t ≤ (t0 :: ts).getLast (by simp) := by
  induction ts generalizing t0 t with
  | nil => rw [List.mem_singleton.1 ht]; simp
  | cons u us ih =>
    rw [List.getLast_cons (by simp)]
    have h' := (List.pairwise_cons.1 h)
    rcases List.mem_cons.1 ht with rfl | e
    · exact (h'.1 u (.head _)).le.trans (ih h'.2 (.head _))
    · exact ih h'.2 e

variable {cfg : Config ℝ} {d : Sketch} {ws : List (Wire ℝ)} {rank : BlkId → Nat} {wd : World ℝ}

/-- All signals of the drawing are of type `double`. -/
theorem signal_types (hc : d.Closed rank) (hw : wd.Begins d) {s : SigId} (hs : s ∈ d.pieces.map Piece.out ++ d.inputs.map Prod.fst) : (wd.sig s).ty = .scalar := by
  rcases List.mem_append.1 hs with h | h
  · obtain ⟨p, hp, rfl⟩ := List.mem_map.1 h
    exact (hw.types p hp).2
  · obtain ⟨u, hu, rfl⟩ := List.mem_map.1 h
    obtain ⟨p, hp, e⟩ := hc.used u hu
    exact (hw.types p hp).1 _ e

/-- The types stay the same. -/
theorem types_after (h : cfg.Draws d) (hc : d.Closed rank) (hw : wd.Begins d) {tPrev t0 minH maxH : ℝ} (h0 : 0 < minH) (h1 : minH < maxH) {ts : List ℝ}
    (hp : (t0 :: ts).Pairwise (· < ·)) {m : Machine ℝ} (hr : RunsTo cfg minH maxH { w := wd, s := { tPrev := tPrev } } (t0 :: ts) m) (s : SigId) :
    (m.w.sig s).ty = (wd.sig s).ty := by
  obtain ⟨ws, hd⟩ := h.drawn
  have hcl := hd.closed hc hw
  have hwp := C59.C59_complete _ _ _ _ hcl
  obtain ⟨m0, g1, g2⟩ := C57.C57_init _ _ _ hwp (fun _ => C57.ordered_exact) _ (.new wd tPrev (hd.new hw)) rfl t0
  have hr' := (C66.runs_first g1 ts).1 hr
  refine runsTo_types hwp h0 h1 hr' (.call (.init t0) (.new wd tPrev (hd.new hw)) rfl g1) g2.init ?_ s
  rw [g2.time]
  exact hp

/-- What is recorded, if all signals are close to the course after each call of `run`. -/
theorem recorded (h : cfg.Draws d) (hc : d.Closed rank) (hw : wd.Begins d) {tPrev t0 minH maxH ε : ℝ} (h0 : 0 < minH) (h1 : minH < maxH) {X : SigId → ℝ → ℝ} {ts : List ℝ}
    (hp : (t0 :: ts).Pairwise (· < ·))
    (key : ∀ j, j ≤ ts.length → (∃ m, RunsTo cfg minH maxH { w := wd, s := { tPrev := tPrev } } (t0 :: ts.take j) m) ∧
      ∀ m, RunsTo cfg minH maxH { w := wd, s := { tPrev := tPrev } } (t0 :: ts.take j) m → ∀ s ∈ d.pieces.map Piece.out ++ d.inputs.map Prod.fst,
        ∃ v, m.w.shown s = some (.scalar v) ∧ |v - X s ((t0 :: ts.take j).getLast (by simp))| ≤ ε)
    {grow : Nat} (hg : 1 ≤ grow) (hb : ts.length + grow < 4294967296) {l : List SigId} (hl : l ≠ []) (hn : l.Nodup) (hsub : ∀ s ∈ l, s ∈ d.pieces.map Piece.out ++ d.inputs.map Prod.fst)
    (order : List (SigId × Rows (List ℝ)) → List (SigId × Rows (List ℝ))) (hord : ∀ l, (order l).Perm l) :
    (∃ h, Session cfg minH maxH { w := wd, s := { tPrev := tPrev } } grow l (t0 :: ts) h) ∧
    ∀ h, Session cfg minH maxH { w := wd, s := { tPrev := tPrev } } grow l (t0 :: ts) h → h.nrows = ts.length + 1 ∧
      (∀ (k : Nat) (t : ℝ), (t0 :: ts)[k]? = some t → h.timeAt k = some t ∧ ∀ s ∈ l, ∃ v, h.rowAt s k = some [v] ∧ |v - X s t| ≤ ε) ∧
      ∃ (csv : Csv ℝ) (ks : List SigId), exportCsv (fun s => (wd.sig s).ty) order h = .ok (some csv) ∧ ks.Perm l ∧ csv.header = ks.map (fun s => ⟨s, none⟩) ∧
        csv.lines.length = ts.length + 1 ∧ ∀ (k : Nat) (t : ℝ), (t0 :: ts)[k]? = some t →
          ∃ v : SigId → ℝ, csv.lines[k]? = some (some t, ks.map (fun s => some (v s))) ∧ ∀ s ∈ l, |v s - X s t| ≤ ε := by
  have hty : ∀ s ∈ l, (wd.sig s).ty = .scalar := fun s hs => signal_types hc hw (hsub s hs)
  have val : ∀ j m, j ≤ ts.length → RunsTo cfg minH maxH { w := wd, s := { tPrev := tPrev } } (t0 :: ts.take j) m → ∀ s ∈ l,
      ∃ v, (m.w.sig s).assigned = true ∧ (m.w.sig s).value = some (.scalar v) ∧ (m.w.sig s).ty = .scalar ∧ |v - X s ((t0 :: ts.take j).getLast (by simp))| ≤ ε := by
    intro j m hj hr s hs
    obtain ⟨v, e1, e2⟩ := (key j hj).2 m hr s (hsub s hs)
    have hpj : (t0 :: ts.take j).Pairwise (· < ·) := hp.sublist ((List.take_sublist j ts).cons_cons t0)
    unfold World.shown at e1
    split at e1
    · exact ⟨v, by assumption, e1, (types_after h hc hw h0 h1 hpj hr s).trans (hty s hs), e2⟩
    · cases e1
  obtain ⟨r1, r2⟩ := session_records (cfg := cfg) (minH := minH) (maxH := maxH) (m := { w := wd, s := { tPrev := tPrev } }) (ts := t0 :: ts) (by simp) (ty := fun s => (wd.sig s).ty) hg
    (by simp; omega) hl hn (fun j m hj hr s hs => by
      rw [List.take_succ_cons] at hr
      obtain ⟨v, a1, a2, a3, _⟩ := val j m (by simpa [Nat.lt_succ_iff] using hj) hr s hs
      refine ⟨fun _ => ⟨_, a2, ?_, ?_⟩, a3.trans (hty s hs).symm⟩
      · rw [a3]; rfl
      · rw [a3]; rfl) order hord
  refine ⟨r1 ?_, fun hist hh => ?_⟩
  · obtain ⟨⟨m, hm⟩, _⟩ := key ts.length (le_refl _)
    rw [List.take_length] at hm
    exact ⟨m, hm⟩
  · obtain ⟨q1, _, q3, csv, ks, c1, c2, c3, c4, c5⟩ := r2 hist hh
    have rows : ∀ (k : Nat) (t : ℝ), (t0 :: ts)[k]? = some t → hist.timeAt k = some t ∧ ∀ s ∈ l, ∃ v, hist.rowAt s k = some [v] ∧ |v - X s t| ≤ ε := by
      intro k t ht
      obtain ⟨m, e1, e2, e3⟩ := q3 k t ht
      refine ⟨e2, fun s hs => ?_⟩
      rw [List.take_succ_cons] at e1
      have hk : k ≤ ts.length := by
        by_contra hc
        rw [List.getElem?_eq_none (by simp; omega)] at ht
        cases ht
      obtain ⟨v, a1, a2, a3, a4⟩ := val k m hk e1 s hs
      rw [take_last ht] at a4
      refine ⟨v, ?_, a4⟩
      rw [e3 s hs]
      unfold sample
      rw [a1, a2]
      rfl
    refine ⟨q1, rows, csv, ks, c1, c2, ?_, c4, fun k t ht => ?_⟩
    · rw [c3, List.map_eq_flatMap]
      refine C51.flatMap_congr' fun s hs => ?_
      unfold headerOf
      simp only [hty s (c2.mem_iff.1 hs)]
    · refine ⟨fun s => ((hist.rowAt s k).getD []).headD 0, ?_, fun s hs => ?_⟩
      · rw [c5 k t ht]
        congr 2
        rw [List.map_eq_flatMap]
        refine C51.flatMap_congr' fun s hs => ?_
        obtain ⟨v, e, _⟩ := (rows k t ht).2 s (c2.mem_iff.1 hs)
        simp only [e]
        rfl
      · obtain ⟨v, e, e'⟩ := (rows k t ht).2 s hs
        simp only [e]
        exact e'

/-- C67: a program that builds the drawing `d`, simulates it with any of the simulators and methods, tracks any of its signals with a `History`, and calls `run(t)` and
`update(k++, t)` for the time `t0` and then for increasing times, then `shrink_to_fit` and `export_csv`.  Let `X` be a course of the signals on `[t0, T]` that satisfies the equations of the drawing.
For every `ε` there is a step size such that, if the times have smaller distances, the program returns, the history has one row for each of the times, and in each row, and each line of
the file, there is the time, and for every signal that was tracked the value of `X` at that time, up to `ε`. -/
theorem C67_converges (cfg : Config ℝ) (d : Sketch) (rank : BlkId → Nat) (h : cfg.Draws d) (hc : d.Closed rank) (wd : World ℝ) (hw : wd.Begins d)
    (tPrev t0 T minH maxH : ℝ) (h0 : 0 < minH) (h1 : minH < maxH) (hT : t0 ≤ T) (J : Finset ℝ) (X : SigId → ℝ → ℝ) (hX : d.Course J t0 T X) (hr : d.Regular J t0 T) :
    ∀ ε > 0, ∃ η > 0, ∀ ts : List ℝ, (t0 :: ts).Pairwise (· < ·) → (t0 :: ts).IsChain (fun s u => u - s ≤ η) → (t0 :: ts).getLast (by simp) ≤ T →
      ∀ (grow : Nat) (l : List SigId) (order : List (SigId × Rows (List ℝ)) → List (SigId × Rows (List ℝ))), 1 ≤ grow → ts.length + grow < 4294967296 → l ≠ [] → l.Nodup →
      (∀ s ∈ l, s ∈ d.pieces.map Piece.out ++ d.inputs.map Prod.fst) → (∀ l, (order l).Perm l) →
      (∃ h, Session cfg minH maxH { w := wd, s := { tPrev := tPrev } } grow l (t0 :: ts) h) ∧
      ∀ h, Session cfg minH maxH { w := wd, s := { tPrev := tPrev } } grow l (t0 :: ts) h → h.nrows = ts.length + 1 ∧
        (∀ (k : Nat) (t : ℝ), (t0 :: ts)[k]? = some t → h.timeAt k = some t ∧ ∀ s ∈ l, ∃ v, h.rowAt s k = some [v] ∧ |v - X s t| ≤ ε) ∧
        ∃ (csv : Csv ℝ) (ks : List SigId), exportCsv (fun s => (wd.sig s).ty) order h = .ok (some csv) ∧ ks.Perm l ∧ csv.header = ks.map (fun s => ⟨s, none⟩) ∧
          csv.lines.length = ts.length + 1 ∧ ∀ (k : Nat) (t : ℝ), (t0 :: ts)[k]? = some t →
            ∃ v : SigId → ℝ, csv.lines[k]? = some (some t, ks.map (fun s => some (v s))) ∧ ∀ s ∈ l, |v s - X s t| ≤ ε := by
  intro ε hε
  obtain ⟨η, hη, key⟩ := C66.C66_converges cfg d rank h hc wd hw tPrev t0 T minH maxH h0 h1 hT J X hX hr ε hε
  refine ⟨η, hη, fun ts a1 a2 a3 grow l order b1 b2 b3 b4 b5 b6 => recorded h hc hw h0 h1 a1 (fun j hj => ?_) b1 b2 b3 b4 b5 order b6⟩
  refine key _ (a1.sublist ((List.take_sublist j ts).cons_cons t0)) ?_ ((le_last a1 ?_).trans a3)
  · have := a2.take (j + 1)
    rwa [List.take_succ_cons] at this
  · rcases List.mem_cons.1 (List.getLast_mem (l := t0 :: ts.take j) (by simp)) with e | e
    · rw [e]; exact .head _
    · exact .tail _ (List.mem_of_mem_take e)

/-- C67, rate: if the signals that are integrated are Lipschitz continuous between the breaks of the course, and those that are delayed everywhere, the error of everything that is recorded is at most proportional to
the largest distance of the times. -/
theorem C67_rate (cfg : Config ℝ) (d : Sketch) (rank : BlkId → Nat) (h : cfg.Draws d) (hc : d.Closed rank) (wd : World ℝ) (hw : wd.Begins d)
    (tPrev t0 T minH maxH : ℝ) (h0 : 0 < minH) (h1 : minH < maxH) (hT : t0 ≤ T) (J : Finset ℝ) (X : SigId → ℝ → ℝ) (hX : d.Course J t0 T X) (hr : d.Regular J t0 T) (M : ℝ) (hM : 0 ≤ M)
    (hl : ∀ p ∈ d.pieces, p.part.isIntegrator = true → ∀ x ∈ p.ins, ∀ s ∈ Icc t0 T, ∀ t ∈ Icc t0 T, s ≤ t → (∀ j ∈ J, j ∉ Icc s t) →
      |X x t - X x s| ≤ M * (t - s))
    (hdl : ∀ p ∈ d.pieces, ∀ life x e i, p.part = .delay life → p.ins = [x, e, i] → ∀ s ∈ Icc t0 T, ∀ t ∈ Icc t0 T, |X x s - X x t| ≤ M * |s - t|) :
    ∃ η0 > 0, ∃ B, ∀ η, 0 ≤ η → η ≤ η0 → ∀ ts : List ℝ, (t0 :: ts).Pairwise (· < ·) → (t0 :: ts).IsChain (fun s u => u - s ≤ η) → (t0 :: ts).getLast (by simp) ≤ T →
      ∀ (grow : Nat) (l : List SigId) (order : List (SigId × Rows (List ℝ)) → List (SigId × Rows (List ℝ))), 1 ≤ grow → ts.length + grow < 4294967296 → l ≠ [] → l.Nodup →
      (∀ s ∈ l, s ∈ d.pieces.map Piece.out ++ d.inputs.map Prod.fst) → (∀ l, (order l).Perm l) →
      (∃ h, Session cfg minH maxH { w := wd, s := { tPrev := tPrev } } grow l (t0 :: ts) h) ∧
      ∀ h, Session cfg minH maxH { w := wd, s := { tPrev := tPrev } } grow l (t0 :: ts) h → h.nrows = ts.length + 1 ∧
        (∀ (k : Nat) (t : ℝ), (t0 :: ts)[k]? = some t → h.timeAt k = some t ∧ ∀ s ∈ l, ∃ v, h.rowAt s k = some [v] ∧ |v - X s t| ≤ B * η) ∧
        ∃ (csv : Csv ℝ) (ks : List SigId), exportCsv (fun s => (wd.sig s).ty) order h = .ok (some csv) ∧ ks.Perm l ∧ csv.header = ks.map (fun s => ⟨s, none⟩) ∧
          csv.lines.length = ts.length + 1 ∧ ∀ (k : Nat) (t : ℝ), (t0 :: ts)[k]? = some t →
            ∃ v : SigId → ℝ, csv.lines[k]? = some (some t, ks.map (fun s => some (v s))) ∧ ∀ s ∈ l, |v s - X s t| ≤ B * η := by
  obtain ⟨η0, hη, B, key⟩ := C66.C66_rate cfg d rank h hc wd hw tPrev t0 T minH maxH h0 h1 hT J X hX hr M hM hl hdl
  refine ⟨η0, hη, B, fun η q1 q2 ts a1 a2 a3 grow l order b1 b2 b3 b4 b5 b6 => recorded h hc hw h0 h1 a1 (fun j hj => ?_) b1 b2 b3 b4 b5 order b6⟩
  refine key η q1 q2 _ (a1.sublist ((List.take_sublist j ts).cons_cons t0)) ?_ ((le_last a1 ?_).trans a3)
  · have := a2.take (j + 1)
    rwa [List.take_succ_cons] at this
  · rcases List.mem_cons.1 (List.getLast_mem (l := t0 :: ts.take j) (by simp)) with e | e
    · rw [e]; exact .head _
    · exact .tail _ (List.mem_of_mem_take e)

/-! ## The samples -/

theorem perm_pair {ks : List Nat} (h : ks.Perm [0, 1]) : ks = [0, 1] ∨ ks = [1, 0] := by
  match ks, (h.length_eq : ks.length = 2) with
  | [a, b], _ =>
    have ha : a ∈ [0, 1] := h.mem_iff.1 (.head _)
    have hb : b ∈ [0, 1] := h.mem_iff.1 (.tail _ (.head _))
    have hne : [a, b].Nodup := h.nodup_iff.2 (by simp)
    simp only [List.mem_cons, List.not_mem_nil, or_false, List.nodup_cons, List.not_mem_nil, not_false_eq_true, List.nodup_nil, and_true] at ha hb hne
    rcases ha with rfl | rfl <;> rcases hb with rfl | rfl <;> simp at hne ⊢

/-- samples/test04_mass_spring.cpp:60-78: the columns `x` (signal 0) and `xd` (signal 1) of mass_spring.csv are, line by line, 0.1 sin t and 0.1 cos t up to `ε`, if the times are
close enough. -/
theorem C67_mass_spring (cfg : Config ℝ) (h : cfg.Draws C66.massSpring) (wd : World ℝ) (hw : wd.Begins C66.massSpring) (tPrev T minH maxH : ℝ) (h0 : 0 < minH) (h1 : minH < maxH)
    (hT : 0 ≤ T) : ∀ ε > 0, ∃ η > 0, ∀ ts : List ℝ, (0 :: ts).Pairwise (· < ·) → (0 :: ts).IsChain (fun s u => u - s ≤ η) → (0 :: ts).getLast (by simp) ≤ T →
      ∀ (grow : Nat) (order : List (SigId × Rows (List ℝ)) → List (SigId × Rows (List ℝ))), 1 ≤ grow → ts.length + grow < 4294967296 → (∀ l, (order l).Perm l) →
      (∃ h, Session cfg minH maxH { w := wd, s := { tPrev := tPrev } } grow [0, 1] (0 :: ts) h) ∧
      ∀ h, Session cfg minH maxH { w := wd, s := { tPrev := tPrev } } grow [0, 1] (0 :: ts) h →
        ∃ csv : Csv ℝ, exportCsv (fun s => (wd.sig s).ty) order h = .ok (some csv) ∧ csv.lines.length = ts.length + 1 ∧
          ((csv.header = [⟨0, none⟩, ⟨1, none⟩] ∧ ∀ (k : Nat) (t : ℝ), (0 :: ts)[k]? = some t → ∃ x v : ℝ, csv.lines[k]? = some (some t, [some x, some v]) ∧
              |x - 0.1 * Real.sin t| ≤ ε ∧ |v - 0.1 * Real.cos t| ≤ ε) ∨
           (csv.header = [⟨1, none⟩, ⟨0, none⟩] ∧ ∀ (k : Nat) (t : ℝ), (0 :: ts)[k]? = some t → ∃ x v : ℝ, csv.lines[k]? = some (some t, [some v, some x]) ∧
              |x - 0.1 * Real.sin t| ≤ ε ∧ |v - 0.1 * Real.cos t| ≤ ε)) := by
  intro ε hε
  obtain ⟨η, hη, key⟩ := C67_converges cfg C66.massSpring _ h C66.massSpring_closed wd hw tPrev 0 T minH maxH h0 h1 hT ∅ C66.massSpringCourse (C66.massSpring_course T)
    (C66.massSpring_regular T) ε hε
  refine ⟨η, hη, fun ts a1 a2 a3 grow order b1 b2 b3 => ?_⟩
  obtain ⟨k1, k2⟩ := key ts a1 a2 a3 grow [0, 1] order b1 b2 (by simp) (by simp) (by simp [C66.massSpring]) b3
  refine ⟨k1, fun h hh => ?_⟩
  obtain ⟨_, _, csv, ks, c1, c2, c3, c4, c5⟩ := k2 h hh
  refine ⟨csv, c1, c4, ?_⟩
  have e0 : ∀ t, C66.massSpringCourse 0 t = 0.1 * Real.sin t := fun t => by simp [C66.massSpringCourse]
  have e1 : ∀ t, C66.massSpringCourse 1 t = 0.1 * Real.cos t := fun t => by simp [C66.massSpringCourse]
  rcases perm_pair c2 with rfl | rfl
  · refine .inl ⟨c3, fun k t ht => ?_⟩
    obtain ⟨v, d1, d2⟩ := c5 k t ht
    exact ⟨v 0, v 1, d1, e0 t ▸ d2 0 (by simp), e1 t ▸ d2 1 (by simp)⟩
  · refine .inr ⟨c3, fun k t ht => ?_⟩
    obtain ⟨v, d1, d2⟩ := c5 k t ht
    exact ⟨v 0, v 1, d1, e0 t ▸ d2 0 (by simp), e1 t ▸ d2 1 (by simp)⟩

/-- The hypotheses of `C67_mass_spring` hold for every simulator and method, and for the times of the sample, 0, 0.01, …, and any `η ≥ 0.01`. -/
example (k : Strategy) (st : Stepper ℝ) (hst : st ∈ [euler, rk4, rkf45]) :
    (∃ cfg : Config ℝ, cfg.Draws C66.massSpring ∧ cfg.strategy = k ∧ cfg.stepper = some st) ∧ (∃ wd : World ℝ, wd.Begins C66.massSpring) ∧
    ([0, 0.01, 0.02] : List ℝ).Pairwise (· < ·) ∧ ([0, 0.01, 0.02] : List ℝ).IsChain (fun s u => u - s ≤ 0.01) ∧ ([0.01, 0.02] : List ℝ).length + 1000 < 4294967296 := by
  refine ⟨(C66.C66_buildable _ _ C66.massSpring_closed (by simp [C66.massSpring, Piece.Fits]) k (some st) (.inr ⟨st, hst, rfl⟩) (fun _ => ⟨⟨1, .integrator 0.1, [2], 1⟩, by simp [C66.massSpring], rfl⟩)).1,
    (C66.C66_buildable _ _ C66.massSpring_closed (by simp [C66.massSpring, Piece.Fits]) k (some st) (.inr ⟨st, hst, rfl⟩) (fun _ => ⟨⟨1, .integrator 0.1, [2], 1⟩, by simp [C66.massSpring], rfl⟩)).2, ?_, ?_, by simp⟩
  · norm_num
  · norm_num

/-- samples/tut01_mass_spring_damper.cpp:66-82: the rows of `history[s_x]` (signal 5) are, up to `ε`, zero for the times up to 1 and then the damped oscillation that the force causes, if the times
are close enough. -/
theorem C67_tutorial (cfg : Config ℝ) (h : cfg.Draws C66.tutorial) (wd : World ℝ) (hw : wd.Begins C66.tutorial) (tPrev T minH maxH : ℝ) (h0 : 0 < minH) (h1 : minH < maxH)
    (hT : 0 ≤ T) : ∀ ε > 0, ∃ η > 0, ∀ ts : List ℝ, (0 :: ts).Pairwise (· < ·) → (0 :: ts).IsChain (fun s u => u - s ≤ η) → (0 :: ts).getLast (by simp) ≤ T →
      ∀ grow : Nat, 1 ≤ grow → ts.length + grow < 4294967296 →
      (∃ h, Session cfg minH maxH { w := wd, s := { tPrev := tPrev } } grow [5, 4] (0 :: ts) h) ∧
      ∀ h, Session cfg minH maxH { w := wd, s := { tPrev := tPrev } } grow [5, 4] (0 :: ts) h → h.nrows = ts.length + 1 ∧
        ∀ (k : Nat) (t : ℝ), (0 :: ts)[k]? = some t → h.timeAt k = some t ∧ ∃ x, h.rowAt 5 k = some [x] ∧
          |x - if t ≤ 1 then 0 else 10 / 7 * (1 - Real.exp (-0.6 * (t - 1)) *
            (Real.cos (Real.sqrt 2.44 * (t - 1)) + 0.6 / Real.sqrt 2.44 * Real.sin (Real.sqrt 2.44 * (t - 1))))| ≤ ε := by
  intro ε hε
  obtain ⟨η, hη, key⟩ := C67_converges cfg C66.tutorial _ h C66.tutorial_closed wd hw tPrev 0 T minH maxH h0 h1 hT {1} _ (C66.tutorial_course T) (C66.tutorial_regular T) ε hε
  refine ⟨η, hη, fun ts a1 a2 a3 grow b1 b2 => ?_⟩
  obtain ⟨k1, k2⟩ := key ts a1 a2 a3 grow [5, 4] id b1 b2 (by simp) (by simp) (by simp [C66.tutorial]) (fun _ => .refl _)
  refine ⟨k1, fun h hh => ?_⟩
  obtain ⟨r1, r2, _⟩ := k2 h hh
  refine ⟨r1, fun k t ht => ?_⟩
  obtain ⟨q1, q2⟩ := r2 k t ht
  obtain ⟨x, e1, e2⟩ := q2 5 (by simp)
  refine ⟨q1, x, e1, ?_⟩
  have e : C66.tutorialCourse 5 t = C66.tutorialPos (max (t - 1) 0) := by simp [C66.tutorialCourse]
  rw [e] at e2
  split
  · rw [max_eq_right (by linarith), C66.tutorial_rest.1] at e2
    exact e2
  · rw [max_eq_left (by linarith)] at e2
    exact e2

/-- The hypotheses of `C67_tutorial` hold for every simulator and method, and for the times of the tutorial, 0, 0.1, …, and any `η ≥ 0.1`. -/
example (k : Strategy) (st : Stepper ℝ) (hst : st ∈ [euler, rk4, rkf45]) :
    (∃ cfg : Config ℝ, cfg.Draws C66.tutorial ∧ cfg.strategy = k ∧ cfg.stepper = some st) ∧ (∃ wd : World ℝ, wd.Begins C66.tutorial) ∧
    ([0, 0.1, 0.2] : List ℝ).Pairwise (· < ·) ∧ ([0, 0.1, 0.2] : List ℝ).IsChain (fun s u => u - s ≤ 0.1) := by
  refine ⟨(C66.C66_buildable _ _ C66.tutorial_closed (by simp [C66.tutorial, Piece.Fits]) k (some st) (.inr ⟨st, hst, rfl⟩) (fun _ => ⟨⟨5, .integrator 0, [3], 4⟩, by simp [C66.tutorial], rfl⟩)).1,
    (C66.C66_buildable _ _ C66.tutorial_closed (by simp [C66.tutorial, Piece.Fits]) k (some st) (.inr ⟨st, hst, rfl⟩) (fun _ => ⟨⟨5, .integrator 0, [3], 4⟩, by simp [C66.tutorial], rfl⟩)).2, ?_, ?_⟩
  · norm_num
  · norm_num

/-- samples/delay_block.cpp:72-96: the rows of `history[model._s_y]` (signal 3) are the values that `_s_x` (signal 0) had 2.7435 earlier, or zero before that, up to an error
proportional to the distance of the times; those of `history[model._s_x]` are the sine up to the same. -/
theorem C67_delay_block (cfg : Config ℝ) (h : cfg.Draws C66.delayBlock) (wd : World ℝ) (hw : wd.Begins C66.delayBlock) (tPrev T minH maxH : ℝ) (h0 : 0 < minH) (h1 : minH < maxH)
    (hT : 0 ≤ T) : ∃ η0 > 0, ∃ B, ∀ η, 0 ≤ η → η ≤ η0 → ∀ ts : List ℝ, (0 :: ts).Pairwise (· < ·) → (0 :: ts).IsChain (fun s u => u - s ≤ η) → (0 :: ts).getLast (by simp) ≤ T →
      ∀ grow : Nat, 1 ≤ grow → ts.length + grow < 4294967296 →
      (∃ h, Session cfg minH maxH { w := wd, s := { tPrev := tPrev } } grow [0, 3] (0 :: ts) h) ∧
      ∀ h, Session cfg minH maxH { w := wd, s := { tPrev := tPrev } } grow [0, 3] (0 :: ts) h → h.nrows = ts.length + 1 ∧
        ∀ (k : Nat) (t : ℝ), (0 :: ts)[k]? = some t → h.timeAt k = some t ∧ ∃ x y, h.rowAt 0 k = some [x] ∧ h.rowAt 3 k = some [y] ∧
          |x - Real.sin (Real.pi * t / 5)| ≤ B * η ∧ |y - if t ≤ 2.7435 then 0 else Real.sin (Real.pi * (t - 2.7435) / 5)| ≤ B * η := by
  obtain ⟨η0, hη, B, key⟩ := C67_rate cfg C66.delayBlock _ h C66.delayBlock_closed wd hw tPrev 0 T minH maxH h0 h1 hT {2.7435} _ (C66.delayBlock_course T)
    (C66.delayBlock_regular T) Real.pi Real.pi_pos.le (by simp [C66.delayBlock, Part.isIntegrator]) C66.delayBlock_slow
  refine ⟨η0, hη, B, fun η q1 q2 ts a1 a2 a3 grow b1 b2 => ?_⟩
  obtain ⟨k1, k2⟩ := key η q1 q2 ts a1 a2 a3 grow [0, 3] id b1 b2 (by simp) (by simp) (by simp [C66.delayBlock]) (fun _ => .refl _)
  refine ⟨k1, fun h hh => ?_⟩
  obtain ⟨r1, r2, _⟩ := k2 h hh
  refine ⟨r1, fun k t ht => ?_⟩
  obtain ⟨p1, p2⟩ := r2 k t ht
  obtain ⟨x, e1, e2⟩ := p2 0 (by simp)
  obtain ⟨y, e3, e4⟩ := p2 3 (by simp)
  exact ⟨p1, x, y, e1, e3, by simpa [C66.delayBlockCourse] using e2, by simpa [C66.delayBlockCourse] using e4⟩

/-- The hypotheses of `C67_delay_block` hold for the sample, a `Simulator` without a method. -/
example : (∃ cfg : Config ℝ, cfg.Draws C66.delayBlock ∧ cfg.strategy = .plain ∧ cfg.stepper = none) ∧ (∃ wd : World ℝ, wd.Begins C66.delayBlock) ∧
    ([0, 0.1, 0.2] : List ℝ).Pairwise (· < ·) ∧ ([0, 0.1, 0.2] : List ℝ).IsChain (fun s u => u - s ≤ 0.1) := by
  have q := C66.C66_buildable _ _ C66.delayBlock_closed (by simp [C66.delayBlock, Piece.Fits]) .plain none (.inl ⟨rfl, by simp [C66.delayBlock, Part.isIntegrator]⟩)
    (fun e => nomatch e)
  refine ⟨q.1, q.2, ?_, ?_⟩
  · norm_num
  · norm_num

end Pooya.C67
