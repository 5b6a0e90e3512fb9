import Verif.Spec.Session
import Verif.Props.C51
import Verif.Props.C60

/-! What the main programs of the samples record. -/

namespace Pooya

set_option linter.unusedSectionVars false

section
variable {K : Type} [Arith K] {cfg : Config K} {minH maxH : K}

theorem trackEach_ok (dbg : Bool) (l : List SigId) : ∀ h : Hist K, h.tab = [] → (h.sigs ++ l).Nodup → trackEach dbg l h = .ok () { h with sigs := h.sigs ++ l } := by
  induction l with
  | nil => intro h _ _; rw [List.append_nil]; rfl
  | cons s l ih =>
    intro h ht hn
    have hs : s ∉ h.sigs := fun e => (List.nodup_append.1 hn).2.2 s e s (.head _) rfl
    have e : histTrack dbg (.val s .scalar) h = .ok true { h with sigs := h.sigs ++ [s] } := by
      unfold histTrack
      rw [get_bind, ht]
      cases dbg <;> simp [hs] <;> rfl
    unfold trackEach
    rw [bind_of_ok e]
    refine (ih { h with sigs := h.sigs ++ [s] } ht (by simpa using hn)).trans ?_
    simp

/-- The calls of `update` of the loop. -/
def updates : Nat → List (World K) → List K → List (HOp K)
  | k, w :: ws, t :: ts => .update w k t :: updates (k + 1) ws ts
  | _, _, _ => []

/-- The diagrams after each of the calls of `run`. -/
def Shots (cfg : Config K) (minH maxH : K) (m : Machine K) (ts : List K) (ws : List (World K)) : Prop :=
  ws.length = ts.length ∧ ∀ j w, ws[j]? = some w → ∃ m', RunsTo cfg minH maxH m (ts.take (j + 1)) m' ∧ m'.w = w

theorem Shots.cons {m m1 : Machine K} {t : K} {ts : List K} {ws : List (World K)} {fuel : Nat} (h : Call.exec cfg (.run fuel t minH maxH) m = .ok () m1)
    (hs : Shots cfg minH maxH m1 ts ws) : Shots cfg minH maxH m (t :: ts) (m1.w :: ws) := by
  refine ⟨by simp [hs.1], fun j w hj => ?_⟩
  cases j with
  | zero =>
    cases hj
    exact ⟨m1, .cons fuel h .nil, rfl⟩
  | succ j =>
    obtain ⟨m', e1, e2⟩ := hs.2 j w (by simpa using hj)
    exact ⟨m', .cons fuel h e1, e2⟩

theorem Captures.split {m : Machine K} {h h' : Hist K} {k : Nat} {ts : List K} (hl : Captures cfg minH maxH m h k ts h') :
    ∃ ws, Shots cfg minH maxH m ts ws ∧ runOps (updates k ws ts) h = .ok () h' := by
  induction hl with
  | nil => exact ⟨[], ⟨rfl, fun j w e => by simp at e⟩, rfl⟩
  | cons fuel h1 h2 _ ih =>
    obtain ⟨ws, e1, e2⟩ := ih
    refine ⟨_ :: ws, .cons h1 e1, ?_⟩
    unfold updates runOps
    refine (bind_of_ok (a := ()) ?_).trans e2
    exact h2

theorem Captures.join {m m' : Machine K} {ts : List K} (hr : RunsTo cfg minH maxH m ts m') :
    ∃ ws, Shots cfg minH maxH m ts ws ∧ ∀ (k : Nat) (h h' : Hist K), runOps (updates k ws ts) h = .ok () h' → Captures cfg minH maxH m h k ts h' := by
  induction hr with
  | nil => exact ⟨[], ⟨rfl, fun j w e => by simp at e⟩, fun k h h' e => by cases e; exact .nil⟩
  | cons fuel h1 _ ih =>
    obtain ⟨ws, e1, e2⟩ := ih
    refine ⟨_ :: ws, .cons h1 e1, fun k h h' e => ?_⟩
    unfold updates runOps at e
    obtain ⟨_, h2, e3, e4⟩ := (bind_ok _ _ _ _ _).1 e
    exact .cons fuel h1 e3 (e2 _ _ _ e4)

theorem updates_mem {ws : List (World K)} {ts : List K} {k : Nat} (hl : ws.length = ts.length) {w : World K} {j : Nat} {t : K} (h : HOp.update w j t ∈ updates k ws ts) :
    k ≤ j ∧ j < k + ts.length ∧ ws[j - k]? = some w ∧ ts[j - k]? = some t := by
  induction ws generalizing k ts with
  | nil => unfold updates at h; cases h
  | cons w1 ws ih =>
    cases ts with
    | nil => cases hl
    | cons t1 ts =>
      unfold updates at h
      rcases List.mem_cons.1 h with h | h
      · cases h
        simp
      · obtain ⟨a, b, c, d⟩ := ih (by simpa using hl) h
        have e : j - k = (j - (k + 1)) + 1 := by omega
        rw [e]
        exact ⟨by omega, by simp; omega, by simpa using c, by simpa using d⟩

theorem updates_get {ws : List (World K)} {ts : List K} {k j : Nat} {w : World K} {t : K} (h1 : ws[j]? = some w) (h2 : ts[j]? = some t) :
    HOp.update w (k + j) t ∈ updates k ws ts := by
  induction ws generalizing k ts j with
  | nil => simp at h1
  | cons w1 ws ih =>
    cases ts with
    | nil => simp at h2
    | cons t1 ts =>
      unfold updates
      cases j with
      | zero => simp at h1 h2; subst h1; subst h2; simp
      | succ j =>
        have := ih (k := k + 1) (j := j) (ts := ts) (by simpa using h1) (by simpa using h2)
        rw [show k + 1 + j = k + (j + 1) by omega] at this
        exact .tail _ this

/-- A row that was recorded was recorded last by some update. -/
theorem lastAt_some {ops : List (HOp K)} {k : Nat} {w : World K} {t : K} (h : HOp.update w k t ∈ ops) : ∃ p, lastAt ops k = some p := by
  induction ops using List.reverseRecOn with
  | nil => cases h
  | append_singleton ops o ih =>
    rw [lastAt_snoc]
    rcases List.mem_append.1 h with h | h
    · obtain ⟨p, hp⟩ := ih h
      cases o with
      | shrink => exact ⟨p, hp⟩
      | update w' j t' =>
        dsimp only
        split
        · exact ⟨_, rfl⟩
        · exact ⟨p, hp⟩
    · rw [List.mem_singleton] at h
      subst h
      exact ⟨_, if_pos rfl⟩

theorem lastAt_updates {ws : List (World K)} {ts : List K} (hl : ws.length = ts.length) (j : Nat) :
    lastAt (updates 0 ws ts) j = match ws[j]?, ts[j]? with | some w, some t => some (w, t) | _, _ => none := by
  cases h : lastAt (updates 0 ws ts) j with
  | some p =>
    obtain ⟨_, _, a, b⟩ := updates_mem hl (lastAt_used h)
    rw [Nat.sub_zero] at a b
    rw [a, b]
  | none =>
    cases h1 : ws[j]? with
    | none => rfl
    | some w =>
      cases h2 : ts[j]? with
      | none => rfl
      | some t =>
        have := lastAt_some (updates_get (k := 0) h1 h2)
        rw [Nat.zero_add, h] at this
        obtain ⟨p, hp⟩ := this
        cases hp

/-- What the program records, if the signals are proper after each call of `run`: the times, and for every signal its value after the call of `run`. -/
theorem session_records {m : Machine K} {ts : List K} (hts : ts ≠ []) {ty : SigId → Ty} {grow : Nat} (hg : 1 ≤ grow) (hb : ts.length + grow ≤ 4294967296) {l : List SigId} (hl : l ≠ [])
    (hn : l.Nodup) (hp : ∀ j m', j < ts.length → RunsTo cfg minH maxH m (ts.take (j + 1)) m' → ∀ s ∈ l, (m'.w.sig s).proper ∧ (m'.w.sig s).ty = ty s)
    (order : List (SigId × Rows (List K)) → List (SigId × Rows (List K))) (hord : ∀ l, (order l).Perm l) :
    ((∃ m', RunsTo cfg minH maxH m ts m') → ∃ h, Session cfg minH maxH m grow l ts h) ∧
    ∀ h, Session cfg minH maxH m grow l ts h → h.nrows = ts.length ∧ h.time.length = ts.length ∧
      (∀ (k : Nat) (t : K), ts[k]? = some t → ∃ m', RunsTo cfg minH maxH m (ts.take (k + 1)) m' ∧ h.timeAt k = some t ∧ ∀ s ∈ l, h.rowAt s k = some (sample (m'.w.sig s))) ∧
      ∃ (csv : Csv K) (ks : List SigId), exportCsv ty order h = .ok (some csv) ∧ ks.Perm l ∧ csv.header = ks.flatMap (headerOf ty) ∧ csv.lines.length = ts.length ∧
        ∀ (k : Nat) (t : K), ts[k]? = some t → csv.lines[k]? = some (some t, ks.flatMap (fun s => ((h.rowAt s k).getD []).map some)) := by
  have hT : trackEach cfg.dbg l (Hist.new grow : Hist K) = .ok () (Hist.tracking grow l) := trackEach_ok _ _ _ rfl (by simpa [Hist.new] using hn)
  have hprop : ∀ ws, Shots cfg minH maxH m ts ws → Proper ty grow l (updates 0 ws ts) := by
    intro ws hw w k t hm
    obtain ⟨_, a, b, c⟩ := updates_mem hw.1 hm
    rw [Nat.sub_zero] at b c
    rw [Nat.zero_add] at a
    obtain ⟨m', e1, rfl⟩ := hw.2 k w b
    exact ⟨by omega, hp k m' a e1⟩
  constructor
  · rintro ⟨m', hr⟩
    obtain ⟨ws, h1, h2⟩ := Captures.join hr
    obtain ⟨h, h3, _⟩ := runOps_ok hg hl hn _ (hprop ws h1)
    exact ⟨_, _, _, hT, h2 _ _ _ h3, rfl⟩
  · rintro h ⟨h0, h1, e0, e1, rfl⟩
    rw [hT] at e0
    cases e0
    obtain ⟨ws, w1, w2⟩ := e1.split
    have hP := hprop ws w1
    have hlast := lastAt_updates w1.1
    have hlen := w1.1
    have hpos : 0 < ts.length := List.length_pos_iff.2 hts
    have hget : ∀ k t, ts[k]? = some t → ∃ w, ws[k]? = some w := fun k t e => by
      have : k < ws.length := by
        rw [hlen]
        by_contra hc
        rw [List.getElem?_eq_none (by omega)] at e
        cases e
      exact ⟨_, List.getElem?_eq_getElem this⟩
    have hu : Used (updates 0 ws ts) := by
      obtain ⟨w, hw⟩ := hget 0 ts[0] (List.getElem?_eq_getElem hpos)
      exact ⟨_, _, _, updates_get hw (List.getElem?_eq_getElem hpos)⟩
    have hne : ∀ o ∈ updates 0 ws ts, o ≠ HOp.shrink := by
      have : ∀ (ws : List (World K)) (ts : List K) k, ∀ o ∈ updates k ws ts, o ≠ HOp.shrink := by
        intro ws
        induction ws with
        | nil => intro ts k o h; unfold updates at h; cases h
        | cons w ws ih =>
          intro ts k o h
          cases ts with
          | nil => unfold updates at h; cases h
          | cons t ts =>
            unfold updates at h
            rcases List.mem_cons.1 h with rfl | h
            · exact fun e => by cases e
            · exact ih _ _ o h
      exact this _ _ _
    have hearly : ¬ Early (updates 0 ws ts) := by
      rintro ⟨a, b, e, _⟩
      exact hne .shrink (by rw [e]; simp) rfl
    obtain ⟨h', r1, hi⟩ := runOps_ok hg hl hn _ hP
    rw [w2] at r1
    cases r1
    have hrows : h1.nrows = ts.length := by
      rw [(nrows_eq hi).2 hu]
      obtain ⟨_, ⟨p, b2⟩, b3⟩ := hi.bottom hu
      have hlt : h1.bottom < ts.length := by have := (updates_mem hlen (lastAt_used b2)).2.1; omega
      obtain ⟨w, hw⟩ := hget (ts.length - 1) _ (List.getElem?_eq_getElem (by omega))
      have := b3 (ts.length - 1) (by rw [hlast, hw, List.getElem?_eq_getElem (by omega)]; simp)
      omega
    have hP' : Proper ty grow l (updates 0 ws ts ++ [.shrink]) := fun w k t hm => hP w k t (by simpa using hm)
    have hlast' : ∀ k, lastAt (updates 0 ws ts ++ [HOp.shrink]) k = lastAt (updates 0 ws ts) k := fun k => by rw [lastAt_snoc]
    obtain ⟨g, g1, g2, g3⟩ := C48.C48_recorded ty grow hg l hl hn _ hP'
    have hgs : g = histShrink h1 := by
      rw [runOps_append, bind_of_ok w2] at g1
      have : (runOps [HOp.shrink] : HM K Unit) h1 = .ok () (histShrink h1) := rfl
      rw [this] at g1
      cases g1
      rfl
    subst hgs
    obtain ⟨s1, _⟩ := C49.C49_shrink_partial ty grow hg l hl hn _ hP h1 w2
    have htl : (histShrink h1).time.length = ts.length := by
      rw [s1, List.length_take]
      have := nrows_le_time hi
      omega
    have hrec : ∀ (k : Nat) (t : K), ts[k]? = some t → ∃ m', RunsTo cfg minH maxH m (ts.take (k + 1)) m' ∧ (histShrink h1).timeAt k = some t ∧
        ∀ s ∈ l, (histShrink h1).rowAt s k = some (sample (m'.w.sig s)) := by
      intro k t ht
      obtain ⟨w, hw⟩ := hget k t ht
      obtain ⟨m', e1, rfl⟩ := w1.2 k w hw
      refine ⟨m', e1, ?_, fun s hs => ?_⟩
      · rw [g2, hlast', hlast, hw, ht]; rfl
      · rw [g3 s hs, hlast', hlast, hw, ht]; rfl
    refine ⟨?_, htl, hrec, ?_⟩
    · have : (histShrink h1).bottom = h1.bottom := by unfold histShrink; dsimp only; split <;> rfl
      unfold Hist.nrows
      rw [this]
      exact hrows
    · obtain ⟨csv, ks, c1, c2, c3, c4⟩ := C51.C51_complete_partial ty grow hg l hl hn _ hP hearly hu h1 w2 (fun k hk => by
        rw [hrows] at hk
        obtain ⟨w, hw⟩ := hget k _ (List.getElem?_eq_getElem hk)
        rw [hlast, hw, List.getElem?_eq_getElem hk]
        simp) order hord
      have hline : ∀ (k : Nat) (t : K), ts[k]? = some t →
          csv.lines[k]? = some (some t, ks.flatMap (fun s => (((histShrink h1).rowAt s k).getD []).map some)) := by
        intro k t ht
        obtain ⟨w, hw⟩ := hget k t ht
        rw [c4, hlast, hw, ht]
        simp only [Option.map_some, Option.some.injEq, Prod.mk.injEq, true_and]
        refine C51.flatMap_congr' fun s hs => ?_
        rw [g3 s (c2.mem_iff.1 hs), hlast', hlast, hw, ht]
        rfl
      refine ⟨csv, ks, c1, c2, c3, ?_, hline⟩
      refine Nat.le_antisymm (Nat.le_of_not_lt fun hlt => ?_) (Nat.le_of_not_lt fun hlt => ?_)
      · have := c4 ts.length
        rw [List.getElem?_eq_getElem hlt, hlast, List.getElem?_eq_none (l := ts) (le_refl _)] at this
        cases h2 : ws[ts.length]? <;> rw [h2] at this <;> cases this
      · have := hline _ _ (List.getElem?_eq_getElem hlt)
        rw [List.getElem?_eq_none (le_refl _)] at this
        cases this

end

section
variable {F : Type} [_root_.Field F] [LinearOrder F] [IsStrictOrderedRing F] [Archimedean F]
attribute [local instance] Arith.exact

/-- The types of the signals stay the same. -/
theorem runsTo_types {cfg : Config F} {ty : SigId → Ty} {rank : BlkId → Nat} (h : cfg.WellPosed ty rank) {minH maxH : F} (h0 : 0 < minH) (h1 : minH < maxH) {ts : List F} {m m' : Machine F}
    (hr : RunsTo cfg minH maxH m ts m') (ha : Attended cfg ty m) (hi : m.s.initialized = true) (hp : (m.s.tPrev :: ts).Pairwise (· < ·)) : ∀ s, (m'.w.sig s).ty = ty s := by
  induction hr with
  | nil => exact ((attended_cared h (fun _ => C57.ordered_exact) ha).fit hi).world.types
  | @cons m m1 m' t ts fuel e _ ih =>
    have hlt : m.s.tPrev < t := (List.pairwise_cons.1 hp).1 t (by simp)
    have hf : (Call.run fuel t minH maxH).Fair cfg m := fun _ =>
      ⟨fun _ => decide_eq_true hlt, fun _ => ⟨.inr (.inr (decide_eq_true hlt)), decide_eq_false (not_lt.2 hlt.le), by simpa using h0, decide_eq_true h1, fun _ => C57.C57_exact cfg _ _ minH maxH h0⟩⟩
    have q := runs_call h (fun _ => C57.ordered_exact) (attended_cared h (fun _ => C57.ordered_exact) ha) _ hf
    rw [e] at q
    obtain ⟨_, q2, q3, _⟩ := q
    refine ih (.call _ ha hf e) q2 ?_
    rw [q3]
    exact (List.pairwise_cons.1 hp).2

end

end Pooya
