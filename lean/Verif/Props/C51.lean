import Verif.Props.C49

/-! # C51 — The exported CSV file is rectangular and complete

Full statement: *every line written by export_csv has as many fields as the header, the columns of a signal are the columns under its
name, and the lines are exactly the recorded rows* — for all recordings and hash orders.

The last part is false: without `shrink_to_fit` the file has lines of indeterminate numbers for rows that were allocated but never
recorded (`C51_refuted_uninitialised`), and if `shrink_to_fit` was called before anything was recorded, `export_csv` may read out
of bounds (`C51_refuted_out_of_bounds`). Proved: every file written is rectangular with the right columns (`C51_rectangular`,
`C51_columns`); if all rows up to the last were recorded and `shrink_to_fit` is called just before, the lines are exactly the
recorded rows (`C51_complete_partial`). -/

namespace Pooya.C51

set_option linter.unusedSectionVars false

variable {K : Type} [Arith K]

theorem except_bind_ok {α β : Type} {x : Except Err α} {f : α → Except Err β} {b : β} (h : (x >>= f) = .ok b) :
    ∃ a, x = .ok a ∧ f a = .ok b := by
  cases x with
  | error e => cases h
  | ok a => exact ⟨a, rfl, h⟩

theorem flatMap_congr' {α β : Type} {l : List α} {f g : α → List β} (h : ∀ a ∈ l, f a = g a) : l.flatMap f = l.flatMap g := by
  induction l with
  | nil => rfl
  | cons a l ih => rw [List.flatMap_cons, List.flatMap_cons, h a (by simp), ih (fun b hb => h b (by simp [hb]))]

theorem headerOf_length (ty : SigId → Ty) (i : SigId) : (headerOf ty i).length = (ty i).cols := by
  unfold headerOf Ty.cols
  cases ty i <;> simp

theorem fieldsOf_length {ty : SigId → Ty} {i : SigId} {r : Rows (List K)} {k : Nat} {a : List (Option K)} (h : fieldsOf ty i r k = .ok a) :
    a.length = (ty i).cols := by
  unfold fieldsOf at h
  split at h
  · cases h
  · cases h; simp
  · cases h; simp

theorem lineOf_length {ty : SigId → Ty} {k : Nat} {tab : List (SigId × Rows (List K))} {a : List (Option K)} (h : lineOf ty k tab = .ok a) :
    a.length = (tab.flatMap (fun p => headerOf ty p.1)).length := by
  induction tab generalizing a with
  | nil => cases h; rfl
  | cons p tab ih =>
    obtain ⟨i, r⟩ := p
    unfold lineOf at h
    obtain ⟨x, hx, h⟩ := except_bind_ok h
    obtain ⟨y, hy, h⟩ := except_bind_ok h
    cases h
    simp only [List.flatMap_cons, List.length_append, headerOf_length, fieldsOf_length hx, ih hy]

theorem linesOf_get {ty : SigId → Ty} {tab : List (SigId × Rows (List K))} {k : Nat} {ts : Rows K} {ls : List (Option K × List (Option K))}
    (h : linesOf ty tab k ts = .ok ls) :
    ls.length = ts.length ∧ ∀ n l, ls[n]? = some l → ts[n]? = some l.1 ∧ lineOf ty (k + n) tab = .ok l.2 := by
  induction ts generalizing k ls with
  | nil => cases h; exact ⟨rfl, fun n l hl => by simp at hl⟩
  | cons t ts ih =>
    unfold linesOf at h
    obtain ⟨x, hx, h⟩ := except_bind_ok h
    obtain ⟨y, hy, h⟩ := except_bind_ok h
    cases h
    obtain ⟨h1, h2⟩ := ih hy
    refine ⟨by simp [h1], fun n l hl => ?_⟩
    cases n with
    | zero => simp at hl; subst hl; exact ⟨rfl, hx⟩
    | succ n =>
      have := h2 n l (by simpa using hl)
      refine ⟨by simpa using this.1, ?_⟩
      rw [← this.2]
      congr 1
      omega

theorem export_some {ty : SigId → Ty} {order : List (SigId × Rows (List K)) → List (SigId × Rows (List K))} {h : Hist K} {csv : Csv K}
    (he : exportCsv ty order h = .ok (some csv)) :
    linesOf ty (order h.tab) 0 h.time = .ok csv.lines ∧ csv.header = (order h.tab).flatMap (fun p => headerOf ty p.1) := by
  unfold exportCsv at he
  split at he
  · cases he
  · obtain ⟨x, hx, he⟩ := except_bind_ok he
    cases he
    exact ⟨hx, rfl⟩

/-- Every line of every file has as many fields as the header (not counting the time, which both have). -/
theorem C51_rectangular (ty : SigId → Ty) (order : List (SigId × Rows (List K)) → List (SigId × Rows (List K))) (h : Hist K) (csv : Csv K)
    (he : exportCsv ty order h = .ok (some csv)) : ∀ line ∈ csv.lines, line.2.length = csv.header.length := by
  obtain ⟨h1, h2⟩ := export_some he
  intro line hm
  obtain ⟨n, hn⟩ := List.mem_iff_getElem?.1 hm
  have := ((linesOf_get h1).2 n line hn).2
  rw [lineOf_length this, h2]

theorem line_column {ty : SigId → Ty} {k : Nat} {tab : List (SigId × Rows (List K))} {a : List (Option K)} (h : lineOf ty k tab = .ok a)
    {j : Nat} {f : Field} (hf : (tab.flatMap (fun p => headerOf ty p.1))[j]? = some f) :
    ∃ r, (f.sig, r) ∈ tab ∧ a[j]? = some (r[k]?.join.bind (fun xs => xs[f.comp.getD 0]?)) := by
  induction tab generalizing a j with
  | nil => simp at hf
  | cons p tab ih =>
    obtain ⟨i, r⟩ := p
    unfold lineOf at h
    obtain ⟨x, hx, h⟩ := except_bind_ok h
    obtain ⟨y, hy, h⟩ := except_bind_ok h
    cases h
    rw [List.flatMap_cons] at hf
    rcases Nat.lt_or_ge j (headerOf ty i).length with hj | hj
    · rw [List.getElem?_append_left hj] at hf
      have hjc : j < (ty i).cols := by rw [headerOf_length] at hj; exact hj
      have hfi : f.sig = i ∧ f.comp.getD 0 = j := by
        unfold headerOf at hf
        unfold Ty.cols at hjc
        cases hty : ty i with
        | array n =>
          rw [hty] at hf hjc
          simp only [List.getElem?_map, List.getElem?_range hjc, Option.map_some, Option.some.injEq] at hf
          subst hf
          exact ⟨rfl, rfl⟩
        | scalar | int | bool =>
          rw [hty] at hf hjc
          have : j = 0 := by simp at hjc; exact hjc
          subst this
          simp at hf
          subst hf
          exact ⟨rfl, rfl⟩
      refine ⟨r, by rw [hfi.1]; simp, ?_⟩
      rw [List.getElem?_append_left (by rw [fieldsOf_length hx]; exact hjc), hfi.2]
      unfold fieldsOf at hx
      split at hx
      · cases hx
      · rename_i hr
        cases hx
        rw [hr, List.getElem?_replicate, if_pos hjc]
        rfl
      · rename_i xs hr
        cases hx
        rw [hr]
        simp [List.getElem?_range hjc]
    · rw [List.getElem?_append_right hj] at hf
      obtain ⟨r', h1, h2⟩ := ih hy hf
      refine ⟨r', List.mem_cons_of_mem _ h1, ?_⟩
      rw [List.getElem?_append_right (by rw [fieldsOf_length hx, ← headerOf_length]; exact hj), fieldsOf_length hx, ← headerOf_length]
      exact h2

/-- Whatever the order of the hash map: the field under the header of (a component of) signal `i` in line `k` is (that component of) row
`k` of `history[i]`, and the line starts with `time()(k)`. -/
theorem C51_columns (ty : SigId → Ty) (order : List (SigId × Rows (List K)) → List (SigId × Rows (List K))) (h : Hist K) (csv : Csv K)
    (hord : (order h.tab).Perm h.tab) (hn : (h.tab.map Prod.fst).Nodup) (he : exportCsv ty order h = .ok (some csv))
    (k : Nat) (line : Option K × List (Option K)) (hk : csv.lines[k]? = some line) :
    line.1 = h.timeAt k ∧ ∀ (j : Nat) (f : Field), csv.header[j]? = some f → line.2[j]? = some ((h.rowAt f.sig k).bind (fun xs => xs[f.comp.getD 0]?)) := by
  obtain ⟨h1, h2⟩ := export_some he
  obtain ⟨h3, h4⟩ := (linesOf_get h1).2 k line hk
  refine ⟨by unfold Hist.timeAt; rw [h3]; rfl, fun j f hf => ?_⟩
  rw [h2] at hf
  obtain ⟨r, hr, e⟩ := line_column h4 hf
  rw [e, Nat.zero_add]
  unfold Hist.rowAt
  rw [tabGet_of_mem hn (hord.mem_iff.1 hr)]
  rfl

/-- What is printed for a row. -/
def printed (w : Nat) : Option (List K) → List (Option K)
  | none => List.replicate w none
  | some xs => xs.map some

theorem map_range_get (xs : List K) : (List.range xs.length).map (fun j => xs[j]?) = xs.map some := by
  apply List.ext_getElem?
  intro n
  rw [List.getElem?_map, List.getElem?_map]
  by_cases hn : n < xs.length
  · rw [List.getElem?_range hn, List.getElem?_eq_getElem hn]; simp [hn]
  · rw [List.getElem?_eq_none (by simp; omega), List.getElem?_eq_none (by omega)]; rfl

theorem lineOf_ok {ty : SigId → Ty} {k : Nat} {tab : List (SigId × Rows (List K))}
    (hb : ∀ p ∈ tab, k < p.2.length) (hw : ∀ p ∈ tab, ∀ xs, p.2[k]?.join = some xs → xs.length = (ty p.1).cols) :
    lineOf ty k tab = .ok (tab.flatMap (fun p => printed (ty p.1).cols p.2[k]?.join)) := by
  induction tab with
  | nil => rfl
  | cons p tab ih =>
    obtain ⟨i, r⟩ := p
    unfold lineOf
    have h1 : fieldsOf ty i r k = .ok (printed (ty i).cols r[k]?.join) := by
      unfold fieldsOf
      have hk := hb (i, r) (by simp)
      dsimp only at hk
      have hwi := hw (i, r) (by simp)
      dsimp only at hwi
      rw [List.getElem?_eq_getElem hk] at hwi ⊢
      cases hrk : r[k] with
      | none => rfl
      | some xs =>
        rw [hrk] at hwi
        simp only [Option.join_some, printed]
        rw [← hwi xs rfl, map_range_get]
    rw [h1, ih (fun p hp => hb p (by simp [hp])) (fun p hp => hw p (by simp [hp]))]
    rfl

theorem linesOf_ok {ty : SigId → Ty} {tab : List (SigId × Rows (List K))} {f : Nat → List (Option K)} {k : Nat} {ts : Rows K}
    (hl : ∀ n, n < ts.length → lineOf ty (k + n) tab = .ok (f (k + n))) :
    ∃ ls, linesOf ty tab k ts = .ok ls ∧ ls.length = ts.length ∧ ∀ n, n < ts.length → ls[n]? = some (ts[n]?.join, f (k + n)) := by
  induction ts generalizing k with
  | nil => exact ⟨[], rfl, rfl, fun n hn => by simp at hn⟩
  | cons t ts ih =>
    obtain ⟨ls, h1, h2, h3⟩ := ih (k := k + 1) (fun n hn => by
      have := hl (n + 1) (by simp; omega)
      rw [show k + 1 + n = k + (n + 1) by omega]; exact this)
    refine ⟨(t, f k) :: ls, ?_, by simp [h2], fun n hn => ?_⟩
    · unfold linesOf
      have := hl 0 (by simp)
      rw [Nat.add_zero] at this
      rw [this, h1]
      rfl
    · cases n with
      | zero => simp
      | succ n =>
        have := h3 n (by simpa using hn)
        rw [show k + 1 + n = k + (n + 1) by omega] at this
        simpa using this

theorem sample_width {ty : SigId → Ty} {c : Cell K} {i : SigId} (hc : c.proper) (ht : c.ty = ty i) : (sample c).length = (ty i).cols := by
  unfold sample
  split
  · rename_i v ha hv
    obtain ⟨v', h1, h2, h3⟩ := hc ha
    rw [hv] at h1
    cases h1
    rw [← ht]
    cases hty : c.ty with
    | array n =>
      rw [hty] at h2 h3
      cases v with
      | array xs => simpa [Val.coeffs, Ty.cols, Val.sizeOk] using h3
      | scalar x => simp [Val.hasTag] at h2
      | int x => simp [Val.hasTag] at h2
      | bool x => simp [Val.hasTag] at h2
    | scalar | int | bool =>
      rw [hty] at h2
      cases v with
      | array xs => simp [Val.hasTag] at h2
      | scalar x => rfl
      | int x => rfl
      | bool b => cases b <;> rfl
  · rw [← ht]
    cases hty : c.ty <;> simp [Ty.cols]

/-- A history whose matrices have the same number of rows can be exported: one line per allocated row, `none` standing for
indeterminate numbers. -/
theorem export_even {ty : SigId → Ty} {grow : Nat} {sigs : List SigId} (hs : sigs ≠ []) (hn : sigs.Nodup) {ops : List (HOp K)}
    (hp : Proper ty grow sigs ops) (hu : Used ops) {h : Hist K} (hi : HInv grow sigs ops h) (hev : Even grow sigs ops h)
    (order : List (SigId × Rows (List K)) → List (SigId × Rows (List K))) (hord : (order h.tab).Perm h.tab) :
    ∃ csv, exportCsv ty order h = .ok (some csv) ∧ csv.header = ((order h.tab).map Prod.fst).flatMap (headerOf ty) ∧
      csv.lines.length = h.time.length ∧ ∀ k, k < h.time.length →
        csv.lines[k]? = some (h.timeAt k, ((order h.tab).map Prod.fst).flatMap (fun i => printed (ty i).cols (h.rowAt i k))) := by
  have hkeys := hi.keys hu
  have hnd : (h.tab.map Prod.fst).Nodup := by rw [hkeys]; exact hn
  have hget : ∀ p ∈ order h.tab, tabGet h.tab p.1 = some p.2 ∧ p.1 ∈ sigs := fun p hpm => by
    have hm := hord.mem_iff.1 hpm
    exact ⟨tabGet_of_mem hnd hm, by rw [← hkeys]; exact List.mem_map.2 ⟨p, hm, rfl⟩⟩
  have hline : ∀ k, k < h.time.length → lineOf ty k (order h.tab) =
      .ok (((order h.tab).map Prod.fst).flatMap (fun i => printed (ty i).cols (h.rowAt i k))) := by
    intro k hk
    rw [lineOf_ok]
    · congr 1
      rw [List.flatMap_map]
      refine flatMap_congr' fun p hpm => ?_
      unfold Hist.rowAt
      rw [(hget p hpm).1]
      rfl
    · intro p hpm
      rw [hev.used hu p.1 (hget p hpm).2 p.2 (hget p hpm).1]
      exact hk
    · intro p hpm xs hxs
      have := hi.rows hu p.1 (hget p hpm).2 k
      unfold Hist.rowAt at this
      rw [(hget p hpm).1, Option.getD_some, hxs] at this
      cases hl : lastAt ops k with
      | none => rw [hl] at this; cases this
      | some q =>
        rw [hl] at this
        cases this
        obtain ⟨_, hw⟩ := hp q.1 k q.2 (lastAt_used hl)
        exact sample_width (hw p.1 (hget p hpm).2).1 (hw p.1 (hget p hpm).2).2
  obtain ⟨ls, h1, h2, h3⟩ := linesOf_ok (ty := ty) (tab := order h.tab) (k := 0) (ts := h.time)
    (f := fun k => ((order h.tab).map Prod.fst).flatMap (fun i => printed (ty i).cols (h.rowAt i k)))
    (fun n hn => by rw [Nat.zero_add]; exact hline n hn)
  refine ⟨⟨(order h.tab).flatMap (fun p => headerOf ty p.1), ls⟩, ?_, ?_, h2, fun k hk => ?_⟩
  · unfold exportCsv
    rw [if_neg]
    · dsimp only; rw [h1]; rfl
    · intro he
      rw [List.isEmpty_iff.1 he] at hkeys
      exact hs hkeys.symm
  · rw [List.flatMap_map]
  · have := h3 k hk
    rw [Nat.zero_add] at this
    exact this

/-- Part of C51: `shrink_to_fit` is called after recording and not before, and every row up to the last was recorded. Then, whatever the
order of the hash map, `export_csv` writes exactly the recorded rows: line `k` has the time and the values of the most recent update with
index `k`, signal after signal in the order of the header. -/
theorem C51_complete_partial (ty : SigId → Ty) (grow : Nat) (hg : 1 ≤ grow) (sigs : List SigId) (hs : sigs ≠ []) (hn : sigs.Nodup)
    (ops : List (HOp K)) (hp : Proper ty grow sigs ops) (he : ¬ Early ops) (hu : Used ops) (h : Hist K)
    (hr : runOps ops (Hist.tracking grow sigs) = .ok () h) (hall : ∀ k, k < h.nrows → lastAt ops k ≠ none)
    (order : List (SigId × Rows (List K)) → List (SigId × Rows (List K))) (hord : ∀ l, (order l).Perm l) :
    ∃ (csv : Csv K) (ks : List SigId), exportCsv ty order (histShrink h) = .ok (some csv) ∧ ks.Perm sigs ∧
      csv.header = ks.flatMap (fun i => match ty i with
        | .array n => (List.range n).map (fun c => ⟨i, some c⟩)
        | _ => [⟨i, none⟩]) ∧
      ∀ k, csv.lines[k]? = (lastAt ops k).map (fun p => (some p.2, ks.flatMap (fun i => (sample (p.1.sig i)).map some))) := by
  have hp' : Proper ty grow sigs (ops ++ [.shrink]) := fun w k t hm => hp w k t (by simpa using hm)
  have he' : ¬ Early (ops ++ [HOp.shrink (K := K)]) := by
    rintro ⟨a, b, h1, h2⟩
    rcases List.append_eq_append_iff.1 h1 with ⟨c, h3, h4⟩ | ⟨c, h3, h4⟩
    · cases c with
      | nil => simp at h3; subst h3; exact h2 hu
      | cons x c =>
        subst h3
        obtain ⟨w, k, t, hm⟩ := hu
        exact h2 ⟨w, k, t, List.mem_append_left _ hm⟩
    · cases c with
      | nil => simp at h3; subst h3; exact h2 hu
      | cons x c =>
        simp only [List.cons_append, List.cons.injEq] at h4
        obtain ⟨h4, _⟩ := h4
        subst h4
        exact he ⟨a, c, h3, h2⟩
  have hu' : Used (ops ++ [HOp.shrink (K := K)]) := (used_snoc _ _).2 (.inl hu)
  obtain ⟨g, h1, hi, hev⟩ := runOps_even hg hs hn _ hp' he'
  have hg' : g = histShrink h := by
    rw [runOps_append, bind_of_ok hr] at h1
    have : (runOps [HOp.shrink] : HM K Unit) h = .ok () (histShrink h) := rfl
    rw [this] at h1
    cases h1
    rfl
  subst hg'
  have hlast : ∀ k, lastAt (ops ++ [HOp.shrink (K := K)]) k = lastAt ops k := fun k => by rw [lastAt_snoc]
  obtain ⟨csv, e1, e2, e3, e4⟩ := export_even hs hn hp' hu' hi hev order (hord _)
  obtain ⟨s1, s2, _⟩ := C49.C49_shrink_partial ty grow hg sigs hs hn ops hp h hr
  obtain ⟨h', r1, hih⟩ := runOps_ok hg hs hn ops hp
  rw [hr] at r1
  cases r1
  have hlen : (histShrink h).time.length = h.nrows := by
    rw [s1, List.length_take]
    have := nrows_le_time hih
    omega
  have hks : ((order (histShrink h).tab).map Prod.fst).Perm sigs := by
    rw [← hi.keys hu']
    exact (hord _).map _
  refine ⟨csv, (order (histShrink h).tab).map Prod.fst, e1, hks, e2, fun k => ?_⟩
  cases hl : lastAt ops k with
  | none =>
    rw [List.getElem?_eq_none]
    · rfl
    · rw [e3, hlen]
      apply Nat.le_of_not_lt
      intro hlt
      exact hall k hlt hl
  | some p =>
    have hlt : k < h.nrows := lastAt_lt_nrows hih (by rw [hl]; simp)
    rw [e4 k (by rw [hlen]; exact hlt), hi.time k, hlast, hl]
    simp only [Option.map_some, Option.some.injEq, Prod.mk.injEq, true_and]
    refine flatMap_congr' fun i him => ?_
    rw [hi.rows hu' i (hks.mem_iff.1 him) k, hlast, hl]
    rfl

/-! ## The refutations -/

/-- Growth 2, one update with index 0: the file has a second line, of indeterminate numbers. -/
theorem C51_refuted_uninitialised :
    ∃ h : Hist ℚ, runOps [.update (C48.world 1 true) 0 (1/2)] (Hist.tracking 2 [0]) = .ok () h ∧
      ∃ csv, exportCsv C48.types id h = .ok (some csv) ∧ csv.lines = [(some (1/2), [some 1]), (none, [none])] := by
  have h : runOps [.update (C48.world 1 true) 0 (1/2)] (Hist.tracking 2 [0] : Hist ℚ) = _ := eq_of_returns (by decide +kernel)
  refine ⟨_, h, ⟨[⟨0, none⟩], [(some (1/2), [some 1]), (none, [none])]⟩, ?_, rfl⟩
  rfl

/-- Growth 10, `shrink_to_fit` on the empty history and one update with index 5: exporting reads row 10 of a matrix with 10 rows. -/
theorem C51_refuted_out_of_bounds :
    ∃ h : Hist ℚ, runOps [.shrink, .update (C48.world 1 true) 5 (1/2)] (Hist.tracking 10 [0]) = .ok () h ∧
      exportCsv C48.types id h = .error (.ub .outOfBounds) := by
  have h : runOps [.shrink, .update (C48.world 1 true) 5 (1/2)] (Hist.tracking 10 [0] : Hist ℚ) = _ := eq_of_returns (by decide +kernel)
  exact ⟨_, h, by rfl⟩

/-! ## Example: two signals, two rows -/

def ops : List (HOp ℚ) := [.update (C48.world 1 true) 0 (1/2), .update (C48.world 5 true) 1 (3/2)]

theorem ops_proper : Proper C48.types 10 [0, 1] ops := by
  intro w k t hm
  simp only [ops, List.mem_cons, HOp.update.injEq, List.not_mem_nil, or_false] at hm
  rcases hm with ⟨rfl, rfl, rfl⟩ | ⟨rfl, rfl, rfl⟩
  · exact ⟨by omega, C48.world_proper _ _⟩
  · exact ⟨by omega, C48.world_proper _ _⟩

theorem ops_early : ¬ Early ops := by
  rintro ⟨a, b, h, hu⟩
  cases a with
  | nil => cases h
  | cons o a =>
    simp only [ops, List.cons_append, List.cons.injEq] at h
    exact hu ⟨_, _, _, by rw [← h.1]; exact List.mem_cons_self⟩

example : ∃ (csv : Csv ℚ) (ks : List SigId), exportCsv C48.types List.reverse (histShrink (stateOf (runOps ops (Hist.tracking 10 [0, 1])))) = .ok (some csv) ∧
    ks.Perm [0, 1] ∧ csv.lines[1]? = some (some (3/2), ks.flatMap (fun i => (sample ((C48.world 5 true).sig i)).map some)) := by
  obtain ⟨csv, ks, h1, h2, _, h3⟩ := C51_complete_partial C48.types 10 (by omega) [0, 1] (by simp) (by decide) ops ops_proper ops_early
    ⟨_, _, _, List.mem_cons_self⟩ _ (eq_of_returns (by decide +kernel))
    (fun k hk => by
      have hn : (stateOf (runOps ops (Hist.tracking 10 [0, 1]))).nrows = 2 := by decide +kernel
      rw [hn] at hk
      have : k = 0 ∨ k = 1 := by omega
      rcases this with rfl | rfl <;> simp [ops, lastAt]) List.reverse (fun l => List.reverse_perm l)
  exact ⟨csv, ks, h1, h2, by rw [h3]; rfl⟩

end Pooya.C51
