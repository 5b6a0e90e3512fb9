import Verif.Proof.Acts
import Verif.Spec.Simulated

/-! What runs do to the members of a single leaf. -/

namespace Pooya

set_option linter.unusedSectionVars false

variable {K : Type} [Arith K] {cfg : Config K}

theorem stateSize_stateless (h : Stateless cfg) (w : World K) : stateSize cfg w = 0 := by
  have h1 : scalarStatesOf cfg w = [] := by
    unfold scalarStatesOf
    rw [List.filter_eq_nil_iff]
    intro s hs
    simp [h s hs]
  have h2 : arrayStatesOf cfg w = [] := by
    unfold arrayStatesOf
    rw [List.filter_eq_nil_iff]
    intro s hs
    simp [h s hs]
  simp [stateSize, h1, h2]

/-- The last evaluation of an `init` that returns, and where it starts. -/
theorem init_last (hp : cfg.model.Proper) {t : K} {m m' : Machine K} (hm : Mid cfg m) (h : simInit cfg t m = .ok () m') :
    ∃ m1, Mid cfg m1 ∧ Full cfg m1 ∧ processModel cfg t true true m1 = .ok () m' ∧ m1.s.initialized = true ∧ m1.s.tPrev = t ∧
      m1.s.nState = stateSize cfg m.w ∧ m1.s.svSize = stateSize cfg m.w ∧
      (cfg.strategy ≠ .fast → m1.w.mem = m.w.mem) ∧
      (cfg.strategy = .fast → ∃ (w1 w2 w3 : World K) (ls : List (Leaf K)), w1.mem = m.w.mem ∧ cfg.model.preStep cfg.dbg t w1 = .ok () w2 ∧
        Acts cfg.dbg t w2 ls w3 ∧ m1.w.mem = w3.mem ∧ (ls.map Leaf.id).Nodup ∧ (∀ l ∈ ls, l ∈ cfg.model.leaves)) := by
  have hfull := full_init hp h
  have hsv : ∀ s : Sim K, ({ s with
      valueSigs := s.valueSigs ++ cfg.hash (linkedSigs cfg.model)
      scalarStates := s.scalarStates ++ cfg.hash (scalarStatesOf cfg m.w)
      arrayStates := s.arrayStates ++ cfg.hash (arrayStatesOf cfg m.w)
      nState := stateSize cfg m.w
      sv := if stateSize cfg m.w = s.svSize then s.sv else if stateSize cfg m.w = 0 then some [] else none
      tPrev := t
      initialized := true } : Sim K).svSize = stateSize cfg m.w := by
    intro s
    show (match (if stateSize cfg m.w = s.svSize then s.sv else if stateSize cfg m.w = 0 then some [] else none) with
      | some v => v.length
      | none => stateSize cfg m.w) = _
    by_cases h1 : stateSize cfg m.w = s.svSize
    · rw [if_pos h1]
      cases hv : s.sv with
      | none => rfl
      | some v => show v.length = _; rw [h1]; simp [Sim.svSize, hv]
    · rw [if_neg h1]
      by_cases h2 : stateSize cfg m.w = 0
      · rw [if_pos h2, h2]; rfl
      · rw [if_neg h2]
  obtain ⟨lg, hlg, he⟩ := baseInit_eq cfg t m
  have hmid := keep_baseInit cfg t m
  rw [he] at hmid
  have h0 := h
  unfold simInit at h
  rw [bind_of_ok he] at h
  generalize hm1 : ({ w := _, s := _ } : Machine K) = m1 at h hmid
  have e1 : m1.s.initialized = true ∧ m1.s.tPrev = t ∧ m1.s.nState = stateSize cfg m.w ∧ m1.s.svSize = stateSize cfg m.w ∧ m1.w.mem = m.w.mem := by
    rw [← hm1]
    exact ⟨rfl, rfl, rfl, hsv m.s, rfl⟩
  have hmid1 : Mid cfg m1 := .other m1 hm hmid.1 hmid.2.1 hmid.2.2
  clear hm1
  have hfast : ∀ {m2 : Machine K}, processModel cfg t true true m2 = .ok () m' → m2.s.fast = m'.s.fast := by
    intro m2 h2
    have := processModel_sim cfg t true true m2
    rw [h2] at this
    have h13 : m'.s = { m2.s with po := m'.s.po } := this
    rw [h13]
  have hF : ∀ {m2 : Machine K}, processModel cfg t true true m2 = .ok () m' → Full cfg m2 := by
    intro m2 h2 hs l hl
    rw [hfast h2]; exact hfull hs l hl
  obtain ⟨i1, i2, i3, i4, i5⟩ := e1
  cases hs : cfg.strategy with
  | plain =>
    rw [hs] at h
    dsimp only at h
    exact ⟨m1, hmid1, hF h, h, i1, i2, i3, i4, fun _ => i5, (fun e => by cases e)⟩
  | reuse =>
    rw [hs] at h
    dsimp only at h
    rw [bind_apply] at h
    simp only [getSim] at h
    by_cases h2 : 0 < m1.s.svSize
    · rw [if_pos h2] at h
      obtain ⟨_, m2, h3, h4⟩ := ok_bind h
      have e2 : m2 = m1 := verify_ok h3
      subst e2
      obtain ⟨_, m3, h5, h6⟩ := ok_bind h4
      have e3 : m3 = { m2 with s := { m2.s with po := some cfg.model.all } } := by cases h5; rfl
      subst e3
      exact ⟨_, .order hs hmid1, hF h6, h6, i1, i2, i3, i4, fun _ => i5, (fun e => by cases e)⟩
    · rw [if_neg h2] at h
      exact ⟨m1, hmid1, hF h, h, i1, i2, i3, i4, fun _ => i5, (fun e => by cases e)⟩
  | fast =>
    rw [hs] at h
    dsimp only at h
    rw [bind_apply] at h
    simp only [getSim] at h
    obtain ⟨_, m2, h1, h2⟩ := ok_bind h
    have e2 : m2 = m1 := verify_ok h1
    subst e2
    obtain ⟨_, m3, h3, h4⟩ := ok_bind h2
    obtain ⟨w3, g3, e3⟩ := inW_ok h3
    obtain ⟨_, m4, h5, h6⟩ := ok_bind h4
    obtain ⟨w4, g4, e4⟩ := inW_ok h5
    have hmid3 : Mid cfg m3 := mid_of ((covers_mid cfg).inputs t) hmid1 h3
    have hmid4 : Mid cfg m4 := mid_of ((covers_mid cfg).pre t) hmid3 h5
    obtain ⟨r, m5, h7, h8⟩ := ok_bind h6
    obtain ⟨w5, g5, e5⟩ := inW_ok ((levels_ok _ _).1 h7)
    obtain ⟨_, m6, h9, h10⟩ := ok_bind h8
    have e6 : m6 = { m5 with s := { m5.s with fast := m5.s.fast ++ r.1 } } := by cases h9; rfl
    have hmid6 : Mid cfg m6 := by rw [e6]; exact .fastOrder t hs hmid4 h7
    by_cases hr : r.2 ≠ cfg.model.leaves.length
    · rw [if_pos hr] at h10; cases h10
    · rw [if_neg hr] at h10
      obtain ⟨_, m7, h11, h12⟩ := ok_bind h10
      obtain ⟨w7, g7, e7⟩ := inW_ok h11
      have hf := fastOrder_aux (dbg := cfg.dbg) (t := t) (I := cfg.model.leafId) cfg.model.leaves hp.leafNodup
        (fun l hl => List.mem_map_of_mem hl) (cfg.model.leaves.length + 1) m4.w
      rw [g5] at hf
      obtain ⟨f1, f2, _, _⟩ := hf
      have hb := f1.basic (fun l hl => List.mem_map_of_mem (f2 l hl))
      refine ⟨m7, ?_, hF h12, h12, ?_⟩
      · rw [clearAll_ok] at g7
        cases g7
        subst e7
        exact .other _ hmid6 (by rfl) (by rfl) (by rfl)
      · have es : m7.s.initialized = m2.s.initialized ∧ m7.s.tPrev = m2.s.tPrev ∧ m7.s.nState = m2.s.nState ∧ m7.s.svSize = m2.s.svSize := by
          rw [e7, e6, e5, e4, e3]
          exact ⟨rfl, rfl, rfl, rfl⟩
        obtain ⟨j1, j2, j3, j4⟩ := es
        refine ⟨j1.trans i1, j2.trans i2, j3.trans i3, j4.trans i4, fun e => (e rfl).elim, fun _ => ?_⟩
        have hw4 : m4.w = w4 := by rw [e4]
        have hw7 : m7.w.mem = w5.mem := by
          have := clear_mem g7
          rw [e7]
          refine this.trans ?_
          rw [e6, e5]
        refine ⟨w3, w4, w5, r.1.flatten, ?_, ?_, ?_, hw7, hb.nodup, f2⟩
        · exact (inputs_mem g3).trans i5
        · rw [e3] at g4; exact g4
        · rw [hw4] at f1; exact f1.acts

/-! ### Memory -/

theorem getv_ok {dbg : Bool} {s : SigId} {v : Val K} {w w' : World K} (h : getv dbg s w = .ok v w') : w' = w ∧ (w.sig s).value = some v := by
  unfold getv at h
  split at h
  · cases h
  · split at h
    · cases h
    · rename_i hv; cases h; exact ⟨rfl, hv⟩

theorem setv_ok {dbg : Bool} {s : SigId} {v : Val K} {w w' : World K} (h : setv dbg s v w = .ok () w') :
    w' = { w with sig := upd w.sig s { w.sig s with assigned := true, value := some v } } := by
  unfold setv at h
  dsimp only at h
  split at h
  · cases h
  · split at h
    · cases h
    · split at h
      · cases h
      · cases h; rfl

/-- The leaf is activated in an evaluation of the whole diagram if it does not wait for anything. -/
theorem activated {l : Leaf K} {m : Machine K} {w : World K} {ls : List (Leaf K)} (hl : l ∈ cfg.model.leaves) (hk : l.kind ≠ .builder)
    (hq : ∀ s, l.Requires s → (w.sig s).assigned = true) (hf : Full cfg m)
    (h1 : cfg.strategy ≠ .fast → ∀ l ∈ cfg.model.leaves, l.kind ≠ .builder → (∀ s, l.Requires s → (w.sig s).assigned = true) → l ∈ ls)
    (h2 : cfg.strategy = .fast → ls = m.s.fast.flatten) : l ∈ ls := by
  by_cases hs : cfg.strategy = .fast
  · rw [h2 hs]; exact hf hs l hl
  · exact h1 hs l hl hk hq

theorem memory_process (hp : cfg.model.Proper) {l : Leaf K} {x out : SigId} (hl : l ∈ cfg.model.leaves) (hk : l.kind = .memory x out)
    (hq : ∀ s, ¬ l.Requires s) (hd : ∀ l' ∈ cfg.model.leaves, out ∈ l'.outs → l'.id = l.id) {t : K} {p : Bool} {m m' : Machine K}
    (hm : Mid cfg m) (hf : Full cfg m) (h : processModel cfg t p true m = .ok () m') :
    m'.value out = some (m.w.mem l.id).value ∧ m'.value x = some (m'.w.mem l.id).value := by
  obtain ⟨w1, w2, m3, h1, h2, h3, h4⟩ := processModel_ok h
  rw [if_pos rfl] at h4
  obtain ⟨w4, h4, rfl⟩ := h4
  have hmem2 : w2.mem l.id = m.w.mem l.id := by
    rw [← inputs_mem h1]
    cases p with
    | false => rw [if_neg (by simp)] at h2; rw [h2]
    | true =>
      rw [if_pos rfl] at h2
      obtain ⟨wa, wb, l2, g1, g2, g3, _⟩ := preStep_leaf hp h2 hl
      rw [g3, ← g2]
      have : wb = { wa with log := .pre l.id t :: wa.log } := by
        rw [pre_apply] at g1
        unfold Leaf.preBody at g1
        rw [hk] at g1
        cases g1; rfl
      rw [this]
  have hmid : Mid cfg { m with w := w2 } := by
    have hm1 : Mid cfg { m with w := w1 } := mid_of ((covers_mid cfg).inputs t) hm (by show inW _ m = _; unfold inW; rw [h1])
    cases p with
    | false => rw [if_neg (by simp)] at h2; rw [h2]; exact hm1
    | true =>
      rw [if_pos rfl] at h2
      exact mid_of ((covers_mid cfg).pre t) hm1 (by show inW _ _ = _; unfold inW; dsimp only; rw [h2])
  obtain ⟨ls, a1, a2, a3, a4, a5⟩ := eval_acts hp hmid h3
  have hin : l ∈ ls := activated (m := { m with w := w2 }) hl (by rw [hk]; simp) (fun s hs => (hq s hs).elim) hf a4 a5
  obtain ⟨l1, l2, wa, wb, e, b1, b2, b3⟩ := a1.split hin
  rw [e] at a2 a3
  simp only [List.map_append, List.map_cons] at a2
  rw [List.nodup_append] at a2
  have n1 : l.id ∉ l1.map Leaf.id := fun hx => a2.2.2 _ hx _ (by simp) rfl
  have n2 : l.id ∉ l2.map Leaf.id := (List.nodup_cons.1 a2.2.1).1
  have hwb : wb = { wa with log := .act l.id t :: wa.log, sig := upd wa.sig out { wa.sig out with assigned := true, value := some (m.w.mem l.id).value } } := by
    rw [act_apply] at b2
    unfold Leaf.actBody at b2
    rw [hk] at b2
    obtain ⟨mm, wc, g1, g2⟩ := ok_bind b2
    cases g1
    have := setv_ok g2
    rw [this]
    have : wa.mem l.id = m.w.mem l.id := (b1.mem n1).trans hmem2
    dsimp only
    rw [this]
  obtain ⟨wc, wd, c1, c2, c3, c4⟩ := postStep_leaf hp h4 hl
  have hsig : w4.sig = m3.w.sig := postStep_sig h4
  constructor
  · show (w4.sig out).value = _
    rw [hsig, b3.sig (fun l' hl' ho => n2 ?_), hwb]
    · simp [upd]
    · rw [← hd l' (a3 l' (by simp [hl'])) ho]
      exact List.mem_map_of_mem hl'
  · show (w4.sig x).value = some (w4.mem l.id).value
    rw [hsig, c4]
    rw [post_apply] at c1
    unfold Leaf.postBody at c1
    rw [hk] at c1
    obtain ⟨v, we, g1, g2⟩ := ok_bind c1
    obtain ⟨e1, e2⟩ := getv_ok g1
    subst e1
    obtain ⟨mm, wf, g3, g4⟩ := ok_bind g2
    cases g3
    cases g4
    have e3 : (wc.sig x).value = some v := e2
    rw [c3] at e3
    rw [e3]
    simp [upd]

end Pooya
