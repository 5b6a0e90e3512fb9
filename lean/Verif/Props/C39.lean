import Verif.Props.C38
import Verif.Spec.Reach

/-! # C39 — Forgetting old records

Full statement: *as long as the delay does not exceed the lifespan, the output is the one that would be obtained with the
complete history of records.*

It is false (`C39_refuted`): `post_step` drops every record older than `t - lifespan`, so the record just before the time looked
up, which the interpolation needs, may be gone; the block then outputs its initial value.  `C39_partial` proves it under the
condition that the record needed is not too old, `C39_gap_partial` under a condition on the distance of consecutive
records, and `C39_forgotten` says what happens otherwise. -/

namespace Pooya.C39

set_option linter.unusedSectionVars false

section
variable {K : Type} [Field K] [LinearOrder K] [IsStrictOrderedRing K]
attribute [local instance] Arith.exact

/-- `Recorded dbg l x h m`: after `post_step` was called at the times of `h`, at each of which the input `x` had the value in `h`,
the memory of the block is `m`. Other things may happen in between as long as they leave the memory of the block alone. -/
inductive Recorded (dbg : Bool) (l : Leaf K) (x : SigId) : List (K × Val K) → Mem K → Prop where
  | start (m : Mem K) (h1 : m.ts = []) (h2 : m.xs = []) : Recorded dbg l x [] m
  | post {h : List (K × Val K)} {w w' : World K} {t : K} {v : Val K} (prev : Recorded dbg l x h (w.mem l.id)) (later : ∀ s ∈ h, s.1 < t)
      (value : (w.sig x).value = some v) (call : l.post dbg t w = .ok () w') : Recorded dbg l x (h ++ [(t, v)]) (w'.mem l.id)

/-- The same situation, except that the block has kept the complete history `h`. -/
def withHistory (w : World K) (l : Leaf K) (h : List (K × Val K)) : World K :=
  { w with mem := upd w.mem l.id { w.mem l.id with ts := h.map (·.1), xs := h.map (·.2) } }

variable {dbg : Bool} {l : Leaf K} {x sd si o : SigId} {ls : K}

/-- The block keeps the records not older than the lifespan. -/
theorem recorded_keep (hk : l.kind = .delay ls x sd si o) (hls : 0 ≤ ls) {h : List (K × Val K)} {m : Mem K} (hr : Recorded dbg l x h m) :
    (h.map (·.1)).Pairwise (· < ·) ∧ ∃ j, j ≤ h.length ∧ m.ts = (h.map (·.1)).drop j ∧ m.xs = (h.map (·.2)).drop j ∧
      ∀ e, (h.map (·.1)).getLast? = some e → j < h.length ∧ ∀ i (hi : i < h.length), i < j ↔ h[i].1 < e - ls := by
  induction hr with
  | start m h1 h2 => exact ⟨by simp, 0, by simp, by simp [h1], by simp [h2], by simp⟩
  | @post h w w' t v prev later value call ih =>
    obtain ⟨hs, j, hj, ht, hx, hc⟩ := ih
    have hp := post_log call
    simp only [Leaf.postBody, hk] at hp
    obtain ⟨v', h1, _, _, _, rfl⟩ := delayPost_ok hp
    rw [value] at h1
    cases h1
    dsimp only at *
    set k := countBefore (t -. ls) (w.mem l.id).ts with hkd
    have hkle : k ≤ (w.mem l.id).ts.length := countBefore_le _ _
    rw [ht, List.length_drop, List.length_map] at hkle
    have hsd : (w.mem l.id).ts.Pairwise (· < ·) := by rw [ht]; exact hs.sublist (List.drop_sublist _ _)
    refine ⟨?_, j + k, ?_, ?_, ?_, ?_⟩
    · rw [List.map_append, List.pairwise_append]
      refine ⟨hs, by simp, fun a ha b hb => ?_⟩
      simp only [List.map_cons, List.map_nil, List.mem_singleton] at hb
      rw [hb]
      obtain ⟨s, hs', rfl⟩ := List.mem_map.1 ha
      exact later s hs'
    · simp only [List.length_append, List.length_singleton]; omega
    · simp only [upd, if_true, List.map_append, List.map_cons, List.map_nil]
      rw [ht, List.drop_drop, List.drop_append_of_le_length (by rw [List.length_map]; omega)]
    · simp only [upd, if_true, List.map_append, List.map_cons, List.map_nil]
      rw [hx, List.drop_drop, List.drop_append_of_le_length (by rw [List.length_map]; omega)]
    · intro e he
      simp only [List.map_append, List.map_cons, List.map_nil, List.getLast?_append, List.getLast?_singleton, Option.some_or,
        Option.some.injEq] at he
      subst he
      refine ⟨by simp only [List.length_append, List.length_singleton]; omega, fun i hi => ?_⟩
      simp only [List.length_append, List.length_singleton] at hi
      rcases Nat.lt_or_ge i h.length with hlt | hge
      · rw [List.getElem_append_left hlt]
        rcases Nat.lt_or_ge i j with hij | hij
        · have hne : (h.map (·.1)) ≠ [] := by intro hh; simp at hh; simp [hh] at hlt
          have e1 := List.getLast?_eq_some_getLast hne
          have e2 := ((hc _ e1).2 i hlt).1 hij
          have e3 : (h.map (·.1)).getLast hne < t := by
            obtain ⟨s, hs', e3⟩ := List.mem_map.1 (List.getLast_mem hne)
            rw [← e3]; exact later s hs'
          exact ⟨fun _ => lt_trans e2 (by linarith), fun _ => by omega⟩
        · have hlen : i - j < (w.mem l.id).ts.length := by rw [ht, List.length_drop, List.length_map]; omega
          have := lt_countBefore (q := t -. ls) hsd (i - j) hlen
          rw [← hkd] at this
          have e1 : (w.mem l.id).ts[i - j] = h[i].1 := by
            simp only [ht, List.getElem_drop, List.getElem_map]
            congr 2; omega
          rw [e1] at this
          rw [← exact_sub, ← this]
          omega
      · have : i = h.length := by omega
        subst this
        simp only [List.getElem_append_right (Nat.le_refl _), Nat.sub_self, List.getElem_singleton]
        exact ⟨fun _ => by omega, fun hh => by linarith⟩

variable {w : World K} {t d : K} {h : List (K × Val K)}

theorem act_iff (hk : l.kind = .delay ls x sd si o) (hd : Holds dbg w sd (.scalar d)) (v : Val K) :
    Outputs dbg l t w o v ↔ delayE (t - d) (readE dbg (w.sig si)) (w.mem l.id).ts (w.mem l.id).xs = .ok v ∧ Takes dbg w o v :=
  outputs_iff (fun lg => by
    simp only [Leaf.actBody, hk]
    exact delayAct_eq (w := { w with log := lg }) hd) v

theorem history_iff (hk : l.kind = .delay ls x sd si o) (hd : Holds dbg w sd (.scalar d)) (v : Val K) :
    Outputs dbg l t (withHistory w l h) o v ↔
      delayE (t - d) (readE dbg (w.sig si)) (h.map (·.1)) (h.map (·.2)) = .ok v ∧ Takes dbg w o v := by
  rw [act_iff (w := withHistory w l h) hk hd v]
  simp only [withHistory, upd, if_true]
  exact Iff.rfl

/-- If no record is before `q`, the initial value is used. -/
theorem delayE_initial {q : K} {i : Except Err (Val K)} {ts : List K} {xs : List (Val K)} (h : ∀ s ∈ ts, q ≤ s) : delayE q i ts xs = i := by
  cases ts with
  | nil => rfl
  | cons a r =>
    simp only [delayE]
    rw [if_pos (show (q <=. a) = true from decide_eq_true (h a (by simp)))]

/-- Part of C39: if some record is before the time looked up then one not older than the lifespan is. Then the output is that
of a block with the complete history. -/
theorem C39_partial (hk : l.kind = .delay ls x sd si o) (hls : 0 ≤ ls) (hr : Recorded dbg l x h (w.mem l.id))
    (hd : Holds dbg w sd (.scalar d)) {e : K} (he : (h.map (·.1)).getLast? = some e)
    (hkeep : ∀ s ∈ h, s.1 < t - d → ∃ s' ∈ h, e - ls ≤ s'.1 ∧ s'.1 < t - d) (v : Val K) :
    Outputs dbg l t w o v ↔ Outputs dbg l t (withHistory w l h) o v := by
  obtain ⟨hs, j, hj, ht, hx, hc⟩ := recorded_keep hk hls hr
  obtain ⟨hjl, hc⟩ := hc e he
  rw [act_iff hk hd, history_iff hk hd, ht, hx]
  suffices hh : delayE (t - d) (readE dbg (w.sig si)) ((h.map (·.1)).drop j) ((h.map (·.2)).drop j) =
      delayE (t - d) (readE dbg (w.sig si)) (h.map (·.1)) (h.map (·.2)) by rw [hh]
  by_cases hall : ∀ s ∈ h, t - d ≤ s.1
  · have h1 : ∀ s ∈ h.map (·.1), t - d ≤ s := fun s hs => by
      obtain ⟨a, ha, rfl⟩ := List.mem_map.1 hs; exact hall a ha
    rw [delayE_initial h1, delayE_initial (fun s hs => h1 s (List.mem_of_mem_drop hs))]
  · simp only [not_forall, not_le] at hall
    obtain ⟨s0, hs0, hlt⟩ := hall
    obtain ⟨s, hsm, hge, hlt⟩ := hkeep s0 hs0 hlt
    obtain ⟨i, hi, rfl⟩ := List.mem_iff_getElem.1 hsm
    have hji : j ≤ i := by
      by_contra hcon
      exact absurd ((hc i hi).1 (by omega)) (not_lt.2 hge)
    have e1 : (h.map (·.1)).drop j = h[j].1 :: (h.map (·.1)).drop (j + 1) := by
      rw [List.drop_eq_getElem_cons (by rw [List.length_map]; exact hjl)]; simp
    have e2 : h.map (·.1) = (h.map (·.1)).take j ++ h[j].1 :: (h.map (·.1)).drop (j + 1) := by rw [← e1, List.take_append_drop]
    have e3 : h.map (·.2) = (h.map (·.2)).take j ++ (h.map (·.2)).drop j := (List.take_append_drop _ _).symm
    conv_rhs => rw [e2, e3]
    rw [e1]
    apply delayE_suffix
    · rw [← e2]; exact hs
    · simp
    · simp only [List.length_drop, List.length_map, List.length_cons]; omega
    · rcases Nat.lt_or_eq_of_le hji with hlt' | rfl
      · have := List.pairwise_iff_getElem.1 hs j i (by rw [List.length_map]; exact hjl) (by rw [List.length_map]; exact hi) hlt'
        simp only [List.getElem_map] at this
        exact lt_trans this hlt
      · exact hlt

/-- Part of C39: if consecutive records are at most `g` apart and the delay exceeds the lifespan by `g` less, that is
`delay + g ≤ lifespan`, the output is that of a block with the complete history. -/
theorem C39_gap_partial (hk : l.kind = .delay ls x sd si o) (hr : Recorded dbg l x h (w.mem l.id)) (hd : Holds dbg w sd (.scalar d))
    {e g : K} (he : (h.map (·.1)).getLast? = some e) (het : e ≤ t) (hls : 0 ≤ ls)
    (hgap : ∀ i (hi : i + 1 < h.length), h[i + 1].1 - h[i].1 ≤ g) (hdg : d + g ≤ ls) (v : Val K) :
    Outputs dbg l t w o v ↔ Outputs dbg l t (withHistory w l h) o v := by
  refine C39_partial hk hls hr hd he (fun s hsm hlt => ?_) v
  obtain ⟨hs, _⟩ := recorded_keep hk hls hr
  obtain ⟨i, hi, rfl⟩ := List.mem_iff_getElem.1 hsm
  -- the last record before the time looked up
  have key : ∀ n i (hi : i < h.length), h.length - i = n → h[i].1 < t - d → ∃ s' ∈ h, e - ls ≤ s'.1 ∧ s'.1 < t - d := by
    intro n
    induction n with
    | zero => intro i hi h0; omega
    | succ n ih =>
      intro i hi hn hlt
      rcases Nat.lt_or_ge (i + 1) h.length with h1 | h1
      · by_cases h2 : h[i + 1].1 < t - d
        · exact ih (i + 1) h1 (by omega) h2
        · refine ⟨h[i], List.getElem_mem hi, ?_, hlt⟩
          have := hgap i h1
          have := not_lt.1 h2
          linarith
      · refine ⟨h[i], List.getElem_mem hi, ?_, hlt⟩
        have : i = h.length - 1 := by omega
        have e1 : h[i].1 = e := by
          have hne : h.map (·.1) ≠ [] := by intro hh; simp at hh; simp [hh] at hi
          rw [List.getLast?_eq_some_getLast hne, List.getLast_eq_getElem] at he
          simp only [List.length_map, List.getElem_map, Option.some.injEq] at he
          subst this
          exact he
        rw [e1]; linarith
  exact key _ i hi rfl hlt

/-- Otherwise, that is, if records exist before the time looked up but all of them are older than the lifespan, the block
outputs its initial value. -/
theorem C39_forgotten (hk : l.kind = .delay ls x sd si o) (hls : 0 ≤ ls) (hr : Recorded dbg l x h (w.mem l.id))
    (hd : Holds dbg w sd (.scalar d)) {e : K} (he : (h.map (·.1)).getLast? = some e)
    (hgone : ∀ s ∈ h, s.1 < t - d → s.1 < e - ls) {v : Val K} (hi : Holds dbg w si v) (ho : Takes dbg w o v) :
    Outputs dbg l t w o v := by
  obtain ⟨hs, j, hj, ht, hx, hc⟩ := recorded_keep hk hls hr
  obtain ⟨hjl, hc⟩ := hc e he
  rw [act_iff hk hd, ht, delayE_initial]
  · refine ⟨?_, ho⟩
    unfold readE
    have := hi.2
    cases dbg
    · simp [hi.1]
    · simp [hi.1, hi.2 rfl]
  · intro s hs'
    obtain ⟨i, hi', rfl⟩ := List.mem_iff_getElem.1 hs'
    simp only [List.length_drop, List.length_map] at hi'
    simp only [List.getElem_drop, List.getElem_map]
    by_contra hcon
    have := (hc (j + i) (by omega)).2 (hgone _ (List.getElem_mem _) (not_le.1 hcon))
    omega

end

/-! ## The counterexample: lifespan 1, delay 1, records at 0, 3/5 and 6/5, evaluation at 13/10 -/

/-- Signal 0 is the input, 1 and 5 are delays, 2 is the initial value, 3 the output; `ts`, `xs` is the record of the block. -/
def world (a : ℚ) (ts : List ℚ) (xs : List (Val ℚ)) : World ℚ where
  sig s := if s = 0 then ⟨.scalar, true, some (.scalar a)⟩ else if s = 1 then ⟨.scalar, true, some (.scalar 1)⟩
    else if s = 5 then ⟨.scalar, true, some (.scalar (1/5))⟩
    else if s = 2 then ⟨.scalar, true, some (.scalar 7)⟩ else ⟨.scalar, false, none⟩
  mem _ := { value := .scalar 0, ts := ts, xs := xs }
  done _ := false
  log := []

def delay (sd : SigId) : Leaf ℚ := { id := 4, links := [], kind := .delay 1 0 sd 2 3 }

/-- Values 0, 6, 12 at times 0, 3/5, 6/5: the input is ten times the time. -/
def history : List (ℚ × Val ℚ) := [(0, .scalar 0), (3/5, .scalar 6), (6/5, .scalar 12)]

/-- The situation at 13/10, after the three steps. -/
def kept : World ℚ := world 13 [3/5, 6/5] [.scalar 6, .scalar 12]

theorem step (sd : SigId) (h : List (ℚ × Val ℚ)) (w : World ℚ) (t a : ℚ) (ts : List ℚ) (xs : List (Val ℚ))
    (h1 : Recorded true (delay sd) 0 h (w.mem 4)) (h2 : ∀ s ∈ h, s.1 < t) (h3 : (w.sig 0).value = some (.scalar a))
    (h4 : returns ((delay sd).post true t w) = true)
    (h5 : (stateOf ((delay sd).post true t w)).mem 4 = { value := .scalar 0, ts := ts, xs := xs }) :
    Recorded true (delay sd) 0 (h ++ [(t, .scalar a)]) { value := .scalar 0, ts := ts, xs := xs } := by
  rw [← h5]
  exact .post (l := delay sd) h1 h2 h3 (eq_of_returns h4)

theorem recorded1 : Recorded true (delay 1) 0 history (kept.mem 4) :=
  step 1 _ (world 12 [0, 3/5] [.scalar 0, .scalar 6]) (6/5) 12 [3/5, 6/5] [.scalar 6, .scalar 12]
    (step 1 _ (world 6 [0] [.scalar 0]) (3/5) 6 [0, 3/5] [.scalar 0, .scalar 6]
      (step 1 [] (world 0 [] []) 0 0 [0] [.scalar 0] (.start _ rfl rfl) (by decide +kernel) rfl (by decide +kernel) (by decide +kernel))
      (by decide +kernel) rfl (by decide +kernel) (by decide +kernel))
    (by decide +kernel) rfl (by decide +kernel) (by decide +kernel)

theorem recorded5 : Recorded true (delay 5) 0 history (kept.mem 4) :=
  step 5 _ (world 12 [0, 3/5] [.scalar 0, .scalar 6]) (6/5) 12 [3/5, 6/5] [.scalar 6, .scalar 12]
    (step 5 _ (world 6 [0] [.scalar 0]) (3/5) 6 [0, 3/5] [.scalar 0, .scalar 6]
      (step 5 [] (world 0 [] []) 0 0 [0] [.scalar 0] (.start _ rfl rfl) (by decide +kernel) rfl (by decide +kernel) (by decide +kernel))
      (by decide +kernel) rfl (by decide +kernel) (by decide +kernel))
    (by decide +kernel) rfl (by decide +kernel) (by decide +kernel)

/-- C39 is false: the delay does not exceed the lifespan, yet the block outputs its initial value 7, whereas with the complete
history it would output 3, the input one time unit ago. -/
theorem C39_refuted : ¬ ∀ (dbg : Bool) (l : Leaf ℚ) (ls : ℚ) (x sd si o : SigId) (h : List (ℚ × Val ℚ)) (w : World ℚ) (t d : ℚ),
    l.kind = .delay ls x sd si o → 0 ≤ ls → Recorded dbg l x h (w.mem l.id) → Holds dbg w sd (.scalar d) → 0 ≤ d → d ≤ ls →
    (∀ s ∈ h, s.1 ≤ t) → ∀ v, Outputs dbg l t w o v ↔ Outputs dbg l t (withHistory w l h) o v := by
  intro hall
  have h1 : Outputs true (delay 1) (13/10) kept 3 (.scalar 7) :=
    C39_forgotten (ls := 1) (x := 0) (sd := 1) (si := 2) (d := 1) (e := 6/5) rfl (by decide +kernel) recorded1 (by decide +kernel) rfl
      (by decide +kernel) (by decide +kernel) (by decide +kernel)
  have h2 := (hall true (delay 1) 1 0 1 2 3 history kept (13/10) 1 rfl (by decide +kernel) recorded1 (by decide +kernel) (by decide +kernel)
    (by decide +kernel) (by decide +kernel) _).1 h1
  obtain ⟨h3, _⟩ := (history_iff (x := 0) (sd := 1) (si := 2) (ls := 1) (d := 1) rfl (by decide +kernel) _).1 h2
  have h4 : Outputs true (delay 1) (13/10) (withHistory kept (delay 1) history) 3 (.scalar 3) :=
    (history_iff (x := 0) (sd := 1) (si := 2) (ls := 1) (d := 1) rfl (by decide +kernel) _).2 ⟨by decide +kernel, by decide +kernel⟩
  obtain ⟨h5, _⟩ := (history_iff (x := 0) (sd := 1) (si := 2) (ls := 1) (d := 1) rfl (by decide +kernel) _).1 h4
  rw [h5] at h3
  injection h3 with h3
  injection h3 with h3
  exact absurd h3 (by decide +kernel)

/-- With delay 1/5 the condition of `C39_gap_partial` holds, although a record was dropped. -/
example (v : Val ℚ) : Outputs true (delay 5) (13/10) kept 3 v ↔ Outputs true (delay 5) (13/10) (withHistory kept (delay 5) history) 3 v :=
  C39_gap_partial (ls := 1) (x := 0) (sd := 5) (si := 2) (d := 1/5) (e := 6/5) (g := 3/5) rfl recorded5 (by decide +kernel) rfl
    (by decide +kernel) (by decide +kernel)
    (fun i hi => by
      have : i = 0 ∨ i = 1 := by simp [history] at hi; omega
      rcases this with rfl | rfl
      · show (3/5 : ℚ) - 0 ≤ 3/5; norm_num
      · show (6/5 : ℚ) - 3/5 ≤ 3/5; norm_num) (by decide +kernel) v

end Pooya.C39
