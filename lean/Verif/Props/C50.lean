import Verif.Props.C48

/-! # C50 — track and untrack maintain a set

Full statement: *track adds a value signal once (returning whether it was added) and untrack removes exactly it, for any call sequence;
buses are never tracked.*

False for call sequences that untrack a signal that is not tracked: the code erases the end iterator, which is undefined behaviour
(`C50_refuted`). All other sequences: `C50_set_partial`, `C50_track_partial`, `C50_untrack_partial`. -/

namespace Pooya.C50

set_option linter.unusedSectionVars false

variable {K : Type} [Arith K]

/-- A call of `track` or `untrack`. -/
inductive TOp where
  | track (s : Signal)
  | untrack (s : Signal)

def TOp.exec (dbg : Bool) : TOp → HM K Unit
  | .track s => do
    let _ ← histTrack dbg s
    pure ()
  | .untrack s => histUntrack dbg s

def runT (dbg : Bool) : List TOp → HM K Unit
  | [] => pure ()
  | o :: os => do
    o.exec dbg
    runT dbg os

/-- Is the value signal `i` a member of the set, after `ops`? -/
def member (ops : List TOp) (i : SigId) : Bool :=
  ops.foldl (fun b o => match o with
    | .track (.val j _) => b || decide (j = i)
    | .untrack (.val j _) => b && !decide (j = i)
    | _ => b) false

/-- Only members of the set are untracked. -/
inductive Legal : List TOp → Prop where
  | nil : Legal []
  | snoc {ops : List TOp} {o : TOp} (prev : Legal ops) (h : ∀ i ty, o = .untrack (.val i ty) → member ops i = true) : Legal (ops ++ [o])

theorem member_snoc (ops : List TOp) (o : TOp) (i : SigId) :
    member (ops ++ [o]) i = match o with
      | .track (.val j _) => member ops i || decide (j = i)
      | .untrack (.val j _) => member ops i && !decide (j = i)
      | _ => member ops i := by
  unfold member
  rw [List.foldl_append]
  rfl

theorem eraseFirst_mem {i : SigId} {l : List SigId} (hn : l.Nodup) (hi : i ∈ l) :
    ∃ l', eraseFirst i l = some l' ∧ l'.Nodup ∧ ∀ j, j ∈ l' ↔ j ∈ l ∧ j ≠ i := by
  induction l with
  | nil => cases hi
  | cons a as ih =>
    rw [List.nodup_cons] at hn
    unfold eraseFirst
    by_cases ha : a = i
    · subst ha
      refine ⟨as, by rw [if_pos rfl], hn.2, fun j => ⟨fun hj => ⟨List.mem_cons_of_mem _ hj, ?_⟩, fun ⟨hj, hne⟩ => ?_⟩⟩
      · rintro rfl; exact hn.1 hj
      · exact (List.mem_cons.1 hj).resolve_left hne
    · obtain ⟨l', h1, h2, h3⟩ := ih hn.2 ((List.mem_cons.1 hi).resolve_left (Ne.symm ha))
      refine ⟨a :: l', by rw [if_neg ha, h1]; rfl, ?_, fun j => ?_⟩
      · rw [List.nodup_cons]
        exact ⟨fun hm => hn.1 ((h3 a).1 hm).1, h2⟩
      · simp only [List.mem_cons, h3]
        constructor
        · rintro (rfl | ⟨h4, h5⟩)
          · exact ⟨.inl rfl, ha⟩
          · exact ⟨.inr h4, h5⟩
        · rintro ⟨rfl | h4, h5⟩
          · exact .inl rfl
          · exact .inr ⟨h4, h5⟩

theorem eraseFirst_none {i : SigId} {l : List SigId} (hi : i ∉ l) : eraseFirst i l = none := by
  induction l with
  | nil => rfl
  | cons a as ih =>
    simp only [List.mem_cons, not_or] at hi
    unfold eraseFirst
    rw [if_neg (Ne.symm hi.1), ih hi.2]
    rfl

theorem verify_ok {h : Hist K} (dbg : Bool) (ht : h.tab = []) : (debugVerify dbg h.tab.isEmpty .debugVerify : HM K Unit) h = .ok () h := by
  unfold debugVerify
  rw [ht]
  cases dbg <;> rfl

/-- Part of C50: before anything is recorded, `track` returns whether the signal is a value signal that was not tracked, and adds it in
this case. -/
theorem C50_track_partial (dbg : Bool) (h : Hist K) (ht : h.tab = []) (i : SigId) (ty : Ty) :
    histTrack dbg (.val i ty) h = .ok (decide (i ∉ h.sigs)) { h with sigs := if i ∈ h.sigs then h.sigs else h.sigs ++ [i] } := by
  unfold histTrack
  rw [get_bind, bind_of_ok (verify_ok dbg ht)]
  dsimp only
  by_cases hi : i ∈ h.sigs
  · rw [if_pos hi, if_pos hi]; simp [hi, pure_apply]
  · rw [if_neg hi, if_neg hi, set_bind]; simp [hi, pure_apply]

/-- Buses are never tracked. -/
theorem C50_bus (dbg : Bool) (h : Hist K) (ht : h.tab = []) (i : SigId) (es : Entries) :
    histTrack dbg (.bus i es) h = .ok false h ∧ histUntrack dbg (.bus i es) h = .ok () h := by
  unfold histTrack histUntrack
  rw [get_bind, bind_of_ok (verify_ok dbg ht), get_bind, bind_of_ok (verify_ok dbg ht)]
  exact ⟨rfl, rfl⟩

/-- Part of C50: `untrack` of a tracked signal removes it and nothing else. -/
theorem C50_untrack_partial (dbg : Bool) (h : Hist K) (ht : h.tab = []) (hn : h.sigs.Nodup) (i : SigId) (ty : Ty) (hi : i ∈ h.sigs) :
    ∃ l, histUntrack dbg (.val i ty) h = .ok () { h with sigs := l } ∧ l.Nodup ∧ ∀ j, j ∈ l ↔ j ∈ h.sigs ∧ j ≠ i := by
  obtain ⟨l, h1, h2, h3⟩ := eraseFirst_mem hn hi
  refine ⟨l, ?_, h2, h3⟩
  unfold histUntrack
  rw [get_bind, bind_of_ok (verify_ok dbg ht)]
  simp only [h1]
  rfl

theorem runT_append (dbg : Bool) (a b : List TOp) (h : Hist K) : runT dbg (a ++ b) h = (do runT dbg a; runT dbg b : HM K Unit) h := by
  induction a generalizing h with
  | nil => rfl
  | cons o a ih =>
    simp only [List.cons_append, runT, bind_apply]
    cases o.exec dbg h with
    | ok u h1 => simp only [ih, bind_apply]
    | error e h1 => rfl

/-- Part of C50: after any sequence of calls that untracks only tracked signals, the tracked signals are exactly the members of the set,
each once, and the history is otherwise as it was. -/
theorem C50_set_partial (dbg : Bool) (grow : Nat) (ops : List TOp) (hl : Legal ops) :
    ∃ l, runT dbg ops (Hist.new grow : Hist K) = .ok () (Hist.tracking grow l) ∧ l.Nodup ∧ ∀ i, i ∈ l ↔ member ops i = true := by
  induction hl with
  | nil => exact ⟨[], rfl, List.nodup_nil, fun i => by simp [member]⟩
  | @snoc ops o prev hleg ih =>
    obtain ⟨l, h1, h2, h3⟩ := ih
    cases o with
    | track s =>
      cases s with
      | bus x es =>
        refine ⟨l, ?_, h2, fun i => by rw [member_snoc]; exact h3 i⟩
        rw [runT_append, bind_of_ok h1]
        simp only [runT, TOp.exec, bind_apply, (C50_bus dbg (Hist.tracking grow l : Hist K) rfl x es).1]
        rfl
      | val j ty =>
        refine ⟨if j ∈ l then l else l ++ [j], ?_, ?_, fun i => ?_⟩
        · rw [runT_append, bind_of_ok h1]
          simp only [runT, TOp.exec, bind_apply, C50_track_partial dbg (Hist.tracking grow l : Hist K) rfl j ty]
          rfl
        · split
          · exact h2
          · rename_i hj
            rw [List.nodup_append]
            exact ⟨h2, by simp, fun a ha b hb => by rintro rfl; simp at hb; subst hb; exact hj ha⟩
        · rw [member_snoc]
          simp only [Bool.or_eq_true, decide_eq_true_eq, ← h3]
          split
          · rename_i hj
            constructor
            · exact .inl
            · rintro (hi | rfl)
              · exact hi
              · exact hj
          · rw [List.mem_append, List.mem_singleton]
            exact or_congr Iff.rfl eq_comm
    | untrack s =>
      cases s with
      | bus x es =>
        refine ⟨l, ?_, h2, fun i => by rw [member_snoc]; exact h3 i⟩
        rw [runT_append, bind_of_ok h1]
        simp only [runT, TOp.exec, bind_apply, (C50_bus dbg (Hist.tracking grow l : Hist K) rfl x es).2]
        rfl
      | val j ty =>
        obtain ⟨l', e1, e2, e3⟩ := C50_untrack_partial dbg (Hist.tracking grow l : Hist K) rfl h2 j ty ((h3 j).2 (hleg j ty rfl))
        refine ⟨l', ?_, e2, fun i => ?_⟩
        · rw [runT_append, bind_of_ok h1]
          simp only [runT, TOp.exec, bind_apply, e1]
          rfl
        · rw [member_snoc, e3]
          simp only [Bool.and_eq_true, Bool.not_eq_true', decide_eq_false_iff_not, ← h3]
          exact and_congr Iff.rfl ⟨Ne.symm, Ne.symm⟩

/-- Untracking a signal that is not tracked is undefined behaviour, in debug and in release builds. -/
theorem C50_refuted (dbg : Bool) (h : Hist K) (ht : h.tab = []) (i : SigId) (ty : Ty) (hi : i ∉ h.sigs) :
    histUntrack dbg (.val i ty) h = .error (.ub .eraseEnd) h := by
  unfold histUntrack
  rw [get_bind, bind_of_ok (verify_ok dbg ht)]
  simp only [eraseFirst_none hi]
  rfl

/-- Once something is recorded, `track` and `untrack` throw in debug builds and change nothing. -/
theorem C50_late_debug (h : Hist K) (ht : h.tab ≠ []) (s : Signal) :
    histTrack true s h = .error (.exc .debugVerify) h ∧ histUntrack true s h = .error (.exc .debugVerify) h := by
  have he : h.tab.isEmpty = false := by
    cases htab : h.tab with
    | nil => exact (ht htab).elim
    | cons => rfl
  have hv : (debugVerify true h.tab.isEmpty .debugVerify : HM K Unit) h = .error (.exc .debugVerify) h := by
    unfold debugVerify
    rw [he]
    rfl
  unfold histTrack histUntrack
  rw [get_bind, get_bind, bind_apply, hv, bind_apply, hv]
  exact ⟨rfl, rfl⟩

/-- In release builds a signal can be tracked after something was recorded, but then the next update throws (after having written the
time and the signals tracked before). -/
theorem C50_late_release (ty : SigId → Ty) (grow : Nat) (hg : 1 ≤ grow) (sigs : List SigId) (hs : sigs ≠ []) (hn : sigs.Nodup)
    (ops : List (HOp K)) (hp : Proper ty grow sigs ops) (hu : Used ops) (h : Hist K)
    (hr : runOps ops (Hist.tracking grow sigs) = .ok () h) (i : SigId) (hi : i ∉ sigs) (w : World K) (k : Nat) (t : K)
    (hk : k + grow < 4294967296) (hw : ∀ j ∈ sigs, (w.sig j).proper) :
    histTrack false (.val i (ty i)) h = .ok true { h with sigs := sigs ++ [i] } ∧
      ∃ h', histUpdate w k t { h with sigs := sigs ++ [i] } = .error (.exc .outOfRange) h' := by
  obtain ⟨h', h1, hi'⟩ := runOps_ok hg hs hn ops hp
  rw [hr] at h1
  cases h1
  have hkeys := hi'.keys hu
  have hne : h.tab.isEmpty = false := by
    cases htab : h.tab with
    | nil => rw [htab] at hkeys; exact (hs hkeys.symm).elim
    | cons => rfl
  have hse := hi'.sigs_eq
  have hge := hi'.grow_eq
  constructor
  · unfold histTrack
    rw [get_bind, bind_of_ok (show (debugVerify false h.tab.isEmpty .debugVerify : HM K Unit) h = .ok () h from rfl)]
    dsimp only
    rw [if_neg (by rw [hse]; exact hi), set_bind, hse]
    rfl
  · obtain ⟨tm, t1, t2, t3⟩ := putRow_ok hg hk h.time t
    have hrows : ∀ (is : List SigId) (hs' : is.Nodup) (g : Hist K), g.grow = grow → (∀ j ∈ is, j ∈ g.tab.map Prod.fst) →
        (∀ j ∈ is, (w.sig j).proper) → i ∉ g.tab.map Prod.fst → ∃ g', histRows w k (is ++ [i]) g = .error (.exc .outOfRange) g' := by
      intro is
      induction is with
      | nil =>
        intro _ g _ _ _ hgi
        refine ⟨g, ?_⟩
        have : tabGet g.tab i = none := by
          cases hg : tabGet g.tab i with
          | none => rfl
          | some r => exact (hgi (List.mem_map.2 ⟨_, tabGet_mem hg, rfl⟩)).elim
        simp only [List.nil_append, histRows]
        rw [get_bind]
        simp only [this]
        rfl
      | cons j is ih =>
        intro hnd g hgg hm hpr hgi
        rw [List.nodup_cons] at hnd
        obtain ⟨r, hr1⟩ := tabGet_isSome (hm j (by simp))
        obtain ⟨r', p1, _⟩ := putRow_ok hg hk r (sample (w.sig j))
        have p1' : putRow g.grow r k (sample (w.sig j)) = .ok r' := by rw [hgg]; exact p1
        obtain ⟨g', e⟩ := ih hnd.2 { g with tab := tabSet g.tab j r' } hgg
          (fun a ha => by dsimp only; rw [tabSet_keys]; exact hm a (by simp [ha])) (fun a ha => hpr a (by simp [ha]))
          (by dsimp only; rw [tabSet_keys]; exact hgi)
        refine ⟨g', ?_⟩
        simp only [List.cons_append, histRows]
        rw [get_bind]
        simp only [hr1]
        rw [rowOf_sample (hpr j (by simp)), bind_of_ok (liftE_ok _ _), p1', bind_of_ok (liftE_ok _ _), set_bind]
        exact e
    obtain ⟨g', hg'⟩ := hrows sigs hn { h with sigs := sigs ++ [i], time := tm } hge (fun j hj => by dsimp only; rw [hkeys]; exact hj) hw
      (by dsimp only; rw [hkeys]; exact hi)
    refine ⟨g', ?_⟩
    unfold histUpdate
    rw [get_bind]
    have t1' : putRow h.grow h.time k t = .ok tm := by rw [hge]; exact t1
    simp only [hne, Bool.false_and, Bool.false_eq_true, if_false]
    rw [set_bind, t1', bind_of_ok (liftE_ok _ _), set_bind, bind_apply, hg']

/-! ## Example -/

example : ∃ l, runT true [.track (.val 3 .scalar), .track (.val 5 .bool), .track (.val 3 .scalar), .untrack (.val 3 .scalar)] (Hist.new 4 : Hist ℚ) =
    .ok () (Hist.tracking 4 l) ∧ l.Nodup ∧ (5 ∈ l ∧ 3 ∉ l) := by
  obtain ⟨l, h1, h2, h3⟩ := C50_set_partial (K := ℚ) true 4
    [.track (.val 3 .scalar), .track (.val 5 .bool), .track (.val 3 .scalar), .untrack (.val 3 .scalar)]
    (.snoc (ops := [.track (.val 3 .scalar), .track (.val 5 .bool), .track (.val 3 .scalar)])
      (.snoc (ops := [.track (.val 3 .scalar), .track (.val 5 .bool)])
        (.snoc (ops := [.track (.val 3 .scalar)]) (.snoc (ops := []) .nil (fun _ _ h => by cases h)) (fun _ _ h => by cases h))
        (fun _ _ h => by cases h)) (fun i ty h => by cases h; decide))
  exact ⟨l, h1, h2, (h3 5).2 (by decide), fun h => absurd ((h3 3).1 h) (by decide)⟩

/-- The situation of `C50_late_release` occurs. -/
example : Used C48.ops ∧ Proper C48.types 1 [0, 1] C48.ops ∧ (2 : SigId) ∉ ([0, 1] : List SigId) ∧ ∀ j ∈ ([0, 1] : List SigId), ((C48.world 1 true).sig j).proper :=
  ⟨⟨_, _, _, List.mem_cons_self⟩, C48.ops_proper 1 (by omega), by decide, fun j hj => (C48.world_proper 1 true j hj).1⟩

end Pooya.C50
