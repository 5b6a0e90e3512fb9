import Verif.Proof.Calls
import Verif.Proof.Eval

/-! The effect of one evaluation, whatever the strategy, as a sequence of activations. -/

namespace Pooya

set_option linter.unusedSectionVars false

variable {K : Type} [Arith K] {dbg : Bool} {t : K}

/-- Only `_processed` flags differ. -/
structure Flagged (w w' : World K) : Prop where
  sig : w'.sig = w.sig
  mem : w'.mem = w.mem
  log : w'.log = w.log

theorem Flagged.refl (w : World K) : Flagged w w := ⟨rfl, rfl, rfl⟩

theorem Flagged.trans {w1 w2 w3 : World K} (h : Flagged w1 w2) (h' : Flagged w2 w3) : Flagged w1 w3 :=
  ⟨h'.sig.trans h.sig, h'.mem.trans h.mem, h'.log.trans h.log⟩

/-- The leaves `ls` run successfully in this order; flags may change in between. -/
inductive Acts (dbg : Bool) (t : K) : World K → List (Leaf K) → World K → Prop
  | nil {w w' : World K} : Flagged w w' → Acts dbg t w [] w'
  | cons {l : Leaf K} {w w0 w1 w' : World K} {ls : List (Leaf K)} : Flagged w w0 → l.act dbg t w0 = .ok () w1 →
      Acts dbg t w1 ls w' → Acts dbg t w (l :: ls) w'

theorem Acts.flag {w w0 w' : World K} {ls : List (Leaf K)} (hf : Flagged w w0) (h : Acts dbg t w0 ls w') : Acts dbg t w ls w' := by
  cases h with
  | nil h => exact .nil (hf.trans h)
  | cons h h1 h2 => exact .cons (hf.trans h) h1 h2

theorem Steps.acts {I : BlkId → Prop} {w w' : World K} {ls : List (Leaf K)} (h : Steps dbg t I w ls w') : Acts dbg t w ls w' := by
  induction h with
  | nil w => exact .nil (.refl w)
  | act _ h _ ih => exact .cons (.refl _) h (by refine Acts.flag ?_ ih; exact ⟨rfl, rfl, rfl⟩)
  | flag _ _ ih => refine Acts.flag ?_ ih; exact ⟨rfl, rfl, rfl⟩

theorem actAll_acts {ls : List (Leaf K)} {w w' : World K} (h : actAll dbg t ls w = .ok () w') : Acts dbg t w ls w' := by
  induction ls generalizing w with
  | nil => cases h; exact .nil (.refl _)
  | cons l ls ih =>
    unfold actAll at h
    obtain ⟨_, w1, h1, h2⟩ := ok_bind h
    exact .cons (.refl _) h1 (ih h2)

theorem Acts.append {w w1 w' : World K} {ls ls' : List (Leaf K)} (h : Acts dbg t w ls w1) (h' : Acts dbg t w1 ls' w') :
    Acts dbg t w (ls ++ ls') w' := by
  induction h with
  | nil hf => exact h'.flag hf
  | cons hf h1 _ ih => exact .cons hf h1 (ih h')

/-- The activation of one of the leaves. -/
theorem Acts.split {w w' : World K} {ls : List (Leaf K)} (h : Acts dbg t w ls w') {l : Leaf K} (hl : l ∈ ls) :
    ∃ (l1 l2 : List (Leaf K)) (wa wb : World K), ls = l1 ++ l :: l2 ∧ Acts dbg t w l1 wa ∧ l.act dbg t wa = .ok () wb ∧ Acts dbg t wb l2 w' := by
  induction h with
  | nil => cases hl
  | @cons a w w0 w1 w' ls hf h1 h2 ih =>
    rcases List.mem_cons.1 hl with rfl | hl
    · exact ⟨[], ls, w0, w1, rfl, .nil hf, h1, h2⟩
    · obtain ⟨l1, l2, wa, wb, e, g1, g2, g3⟩ := ih hl
      exact ⟨a :: l1, l2, wa, wb, by rw [e]; rfl, .cons hf h1 g1, g2, g3⟩

theorem Acts.mem {w w' : World K} {ls : List (Leaf K)} (h : Acts dbg t w ls w') {b : BlkId} (hb : b ∉ ls.map Leaf.id) : w'.mem b = w.mem b := by
  induction h with
  | nil hf => rw [hf.mem]
  | cons hf h1 _ ih =>
    simp only [List.map_cons, List.mem_cons, not_or] at hb
    rw [ih hb.2, (act_within h1).mem _ hb.1, ← hf.mem]

theorem Acts.sig {w w' : World K} {ls : List (Leaf K)} (h : Acts dbg t w ls w') {s : SigId} (hs : ∀ l ∈ ls, s ∉ l.outs) : w'.sig s = w.sig s := by
  induction h with
  | nil hf => rw [hf.sig]
  | cons hf h1 _ ih =>
    rw [ih (fun l hl => hs l (by simp [hl])), (act_within h1).sig _ (hs _ (by simp)), ← hf.sig]

theorem Acts.mono {w w' : World K} {ls : List (Leaf K)} (h : Acts dbg t w ls w') {s : SigId} (hs : (w.sig s).assigned = true) :
    (w'.sig s).assigned = true := by
  induction h with
  | nil hf => rw [hf.sig]; exact hs
  | cons hf h1 _ ih => exact ih ((act_within h1).mono _ (by rw [hf.sig]; exact hs))

/-- The blocks `FastSimulator` runs are all blocks of the model. -/
def Full (cfg : Config K) (m : Machine K) : Prop := cfg.strategy = .fast → ∀ l ∈ cfg.model.leaves, l ∈ m.s.fast.flatten

/-- One evaluation that returns: leaves of the model are activated, each at most once; a leaf all of whose required signals end up
assigned is activated; `FastSimulator` activates the blocks in its list. -/
theorem eval_acts {cfg : Config K} (hp : cfg.model.Proper) {t : K} {m m' : Machine K} (hm : Mid cfg m) (h : evalModel cfg t m = .ok () m') :
    ∃ ls : List (Leaf K), Acts cfg.dbg t m.w ls m'.w ∧ (ls.map Leaf.id).Nodup ∧ (∀ l ∈ ls, l ∈ cfg.model.leaves) ∧
      (cfg.strategy ≠ .fast → ∀ l ∈ cfg.model.leaves, l.kind ≠ .builder → (∀ s, l.Requires s → (m'.w.sig s).assigned = true) → l ∈ ls) ∧
      (cfg.strategy = .fast → ls = m.s.fast.flatten) := by
  have hi := mid_inv cfg hp hm
  by_cases hs : cfg.strategy = .fast
  · have h1 : inW (actAll cfg.dbg t m.s.fast.flatten) m = .ok () m' := by
      unfold evalModel at h
      rw [hs] at h
      exact h
    obtain ⟨w', h2, rfl⟩ := inW_ok h1
    exact ⟨_, actAll_acts h2, hi.fastNodup, hi.fastSub, fun e => (e hs).elim, fun _ => rfl⟩
  · have := eval_spec cfg hs hp (m := m) (fun _ => hi) t
    rw [h] at this
    obtain ⟨w1, ls, hk⟩ := this
    have hI : ∀ l ∈ cfg.model.leaves, cfg.model.leafId l.id := fun l hl => List.mem_map_of_mem hl
    have hb := hk.steps.basic (fun l hl => hI l (hk.sub l hl))
    refine ⟨ls, hk.steps.acts.flag ⟨hk.marked.sig, hk.marked.mem, hk.marked.log⟩, hb.nodup, hk.sub, ?_, fun e => (hs e).elim⟩
    intro _ l hl hbl hreq
    have hd : m'.w.done l.id = true := by
      cases hd : m'.w.done l.id with
      | true => rfl
      | false => exact (hk.stuck l hl ⟨hd, hreq⟩).elim
    rcases (hb.done l.id (hI l hl)).1 hd with h1 | h1
    · have := hk.marked.done _ ((leaf_mem_all _ l).1 hl)
      have h1' : w1.done (Block.leaf l).id = true := h1
      rw [h1'] at this
      simp only [Block.isBuilder] at this
      cases this
    · obtain ⟨l', hl', e⟩ := List.mem_map.1 h1
      have := List.inj_on_of_nodup_map hp.leafNodup (hk.sub l' hl') hl e
      exact this ▸ hl'

/-! ### pre_step and post_step -/

theorem preAll_split {l1 l2 : List (Leaf K)} {l : Leaf K} {w w' : World K} (h : preAll dbg t (l1 ++ l :: l2) w = .ok () w') :
    ∃ wa wb, preAll dbg t l1 w = .ok () wa ∧ l.pre dbg t wa = .ok () wb ∧ preAll dbg t l2 wb = .ok () w' := by
  rw [preAll_append] at h
  obtain ⟨_, wa, h1, h2⟩ := ok_bind h
  unfold preAll at h2
  obtain ⟨_, wb, h3, h4⟩ := ok_bind h2
  exact ⟨wa, wb, h1, h3, h4⟩

theorem postAll_split {l1 l2 : List (Leaf K)} {l : Leaf K} {w w' : World K} (h : postAll dbg t (l1 ++ l :: l2) w = .ok () w') :
    ∃ wa wb, postAll dbg t l1 w = .ok () wa ∧ l.post dbg t wa = .ok () wb ∧ postAll dbg t l2 wb = .ok () w' := by
  rw [postAll_append] at h
  obtain ⟨_, wa, h1, h2⟩ := ok_bind h
  unfold postAll at h2
  obtain ⟨_, wb, h3, h4⟩ := ok_bind h2
  exact ⟨wa, wb, h1, h3, h4⟩

theorem pre_ok {l : Leaf K} {w w' : World K} (h : l.pre dbg t w = .ok () w') : Within (· ∈ l.preOuts) l.id { w with log := .pre l.id t :: w.log } w' := by
  have := frame_preBody dbg l t { w with log := .pre l.id t :: w.log }
  rw [pre_apply] at h
  rw [h] at this
  exact this

theorem post_ok {l : Leaf K} {w w' : World K} (h : l.post dbg t w = .ok () w') : Within (fun _ => False) l.id { w with log := .post l.id t :: w.log } w' := by
  have := frame_postBody dbg l t { w with log := .post l.id t :: w.log }
  rw [post_apply] at h
  rw [h] at this
  exact this

theorem preAll_mem {ls : List (Leaf K)} {w w' : World K} (h : preAll dbg t ls w = .ok () w') {b : BlkId} (hb : b ∉ ls.map Leaf.id) :
    w'.mem b = w.mem b := by
  induction ls generalizing w with
  | nil => cases h; rfl
  | cons l ls ih =>
    unfold preAll at h
    obtain ⟨_, w1, h1, h2⟩ := ok_bind h
    simp only [List.map_cons, List.mem_cons, not_or] at hb
    rw [ih h2 hb.2]
    exact (pre_ok h1).mem _ hb.1

theorem preAll_sig {ls : List (Leaf K)} {w w' : World K} (h : preAll dbg t ls w = .ok () w') {s : SigId} (hs : ∀ l ∈ ls, s ∉ l.preOuts) :
    w'.sig s = w.sig s := by
  induction ls generalizing w with
  | nil => cases h; rfl
  | cons l ls ih =>
    unfold preAll at h
    obtain ⟨_, w1, h1, h2⟩ := ok_bind h
    rw [ih h2 (fun l hl => hs l (by simp [hl]))]
    exact (pre_ok h1).sig _ (hs _ (by simp))

theorem postAll_mem {ls : List (Leaf K)} {w w' : World K} (h : postAll dbg t ls w = .ok () w') {b : BlkId} (hb : b ∉ ls.map Leaf.id) :
    w'.mem b = w.mem b := by
  induction ls generalizing w with
  | nil => cases h; rfl
  | cons l ls ih =>
    unfold postAll at h
    obtain ⟨_, w1, h1, h2⟩ := ok_bind h
    simp only [List.map_cons, List.mem_cons, not_or] at hb
    rw [ih h2 hb.2]
    exact (post_ok h1).mem _ hb.1

theorem postAll_sig {ls : List (Leaf K)} {w w' : World K} (h : postAll dbg t ls w = .ok () w') : w'.sig = w.sig := by
  induction ls generalizing w with
  | nil => cases h; rfl
  | cons l ls ih =>
    unfold postAll at h
    obtain ⟨_, w1, h1, h2⟩ := ok_bind h
    rw [ih h2]
    exact funext (fun s => (post_ok h1).sig s (by simp))

/-- `pre_step` of one of the leaves: its members before and after. -/
theorem preStep_leaf {cfg : Config K} (hp : cfg.model.Proper) {w w' : World K} (h : cfg.model.preStep dbg t w = .ok () w') {l : Leaf K}
    (hl : l ∈ cfg.model.leaves) : ∃ wa wb l2, l.pre dbg t wa = .ok () wb ∧ wa.mem l.id = w.mem l.id ∧ w'.mem l.id = wb.mem l.id ∧
      preAll dbg t l2 wb = .ok () w' ∧ (∀ x ∈ l2, x ∈ cfg.model.leaves ∧ x.id ≠ l.id) := by
  rw [preStep_eq] at h
  obtain ⟨l1, l2, e⟩ := List.append_of_mem hl
  have hn := hp.leafNodup
  rw [e] at h hn
  obtain ⟨wa, wb, h1, h2, h3⟩ := preAll_split h
  have hn1 : l.id ∉ l1.map Leaf.id ∧ l.id ∉ l2.map Leaf.id := by
    simp only [List.map_append, List.map_cons] at hn
    rw [List.nodup_append] at hn
    exact ⟨fun hx => hn.2.2 _ hx _ (by simp) rfl, (List.nodup_cons.1 hn.2.1).1⟩
  refine ⟨wa, wb, l2, h2, preAll_mem h1 hn1.1, preAll_mem h3 hn1.2, h3, fun x hx => ⟨by rw [e]; simp [hx], fun he => ?_⟩⟩
  exact hn1.2 (he ▸ List.mem_map_of_mem hx)

/-- `post_step` of one of the leaves: its members before and after, and the signals it sees. -/
theorem postStep_leaf {cfg : Config K} (hp : cfg.model.Proper) {w w' : World K} (h : cfg.model.postStep dbg t w = .ok () w') {l : Leaf K}
    (hl : l ∈ cfg.model.leaves) : ∃ wa wb, l.post dbg t wa = .ok () wb ∧ wa.mem l.id = w.mem l.id ∧ wa.sig = w.sig ∧ w'.mem l.id = wb.mem l.id := by
  rw [postStep_eq] at h
  obtain ⟨l1, l2, e⟩ := List.append_of_mem hl
  have hn := hp.leafNodup
  rw [e] at h hn
  obtain ⟨wa, wb, h1, h2, h3⟩ := postAll_split h
  have hn1 : l.id ∉ l1.map Leaf.id ∧ l.id ∉ l2.map Leaf.id := by
    simp only [List.map_append, List.map_cons] at hn
    rw [List.nodup_append] at hn
    exact ⟨fun hx => hn.2.2 _ hx _ (by simp) rfl, (List.nodup_cons.1 hn.2.1).1⟩
  exact ⟨wa, wb, h2, postAll_mem h1 hn1.1, postAll_sig h1, postAll_mem h3 hn1.2⟩

theorem postStep_sig {b : Block K} {w w' : World K} (h : b.postStep dbg t w = .ok () w') : w'.sig = w.sig := by
  rw [postStep_eq] at h
  exact postAll_sig h

/-- User input does not touch the blocks. -/
theorem inputs_mem {cfg : Config K} {w w' : World K} (h : callInputs cfg t w = .ok () w') : w'.mem = w.mem := by
  have : PreO (fun w w' : World K => w'.mem = w.mem) := ⟨fun _ => rfl, fun h h' => h'.trans h⟩
  have := moves_callInputs (T := fun w w' : World K => w'.mem = w.mem) cfg t (fun _ => rfl) (fun _ _ _ _ => rfl) w
  rw [h] at this
  exact this

theorem clear_mem {ss : List SigId} {w w' : World K} (h : clearAll ss w = .ok () w') : w'.mem = w.mem := by
  rw [clearAll_ok] at h
  cases h; rfl

theorem reset_mem {cfg : Config K} {x : List K} {m m' : Machine K} (h : resetWith cfg x m = .ok () m') : m'.w.mem = m.w.mem := by
  have hP : PreO (fun w w' : World K => w'.mem = w.mem) := ⟨fun _ => rfl, fun h h' => h'.trans h⟩
  obtain ⟨w1, w2, w3, d, h1, h2, h3, rfl⟩ := resetWith_ok h
  have g2 := moves_writeScalars (T := fun w w' : World K => w'.mem = w.mem) cfg.dbg m.s.scalarStates x (fun _ _ _ _ => rfl) w1
  have g3 := moves_writeArrays (T := fun w w' : World K => w'.mem = w.mem) cfg.dbg m.s.arrayStates d (fun _ _ _ _ => rfl) w2
  rw [h2] at g2
  rw [h3] at g3
  exact (g3.trans g2).trans (clear_mem h1)

/-! ### FastSimulator's list -/

theorem full_init {cfg : Config K} (hp : cfg.model.Proper) {t : K} {m m' : Machine K} (h : simInit cfg t m = .ok () m') : Full cfg m' := by
  intro hs
  obtain ⟨lg, _, he⟩ := baseInit_eq cfg t m
  unfold simInit at h
  rw [bind_of_ok he, hs] at h
  dsimp only at h
  rw [bind_apply] at h
  simp only [getSim] at h
  obtain ⟨_, m1, h1, h2⟩ := ok_bind h
  obtain ⟨_, m2, h3, h4⟩ := ok_bind h2
  obtain ⟨_, m3, h5, h6⟩ := ok_bind h4
  obtain ⟨r, m4, h7, h8⟩ := ok_bind h6
  obtain ⟨_, m5, h9, h10⟩ := ok_bind h8
  by_cases hr : r.2 ≠ cfg.model.leaves.length
  · rw [if_pos hr] at h10
    cases h10
  · rw [if_neg hr] at h10
    obtain ⟨_, m6, h11, h12⟩ := ok_bind h10
    obtain ⟨w4, g7, e4⟩ := inW_ok ((levels_ok cfg t).1 h7)
    have hf := fastOrder_aux (dbg := cfg.dbg) (t := t) (I := cfg.model.leafId) cfg.model.leaves hp.leafNodup
      (fun l hl => List.mem_map_of_mem hl) (cfg.model.leaves.length + 1) m3.w
    rw [g7] at hf
    obtain ⟨f1, f2, _, f4⟩ := hf
    have hb := f1.basic (fun l hl => List.mem_map_of_mem (f2 l hl))
    have hall : ∀ l ∈ cfg.model.leaves, l ∈ r.1.flatten := by
      intro l hl
      have hn : r.1.flatten.Nodup := List.Nodup.of_map _ hb.nodup
      have hsp : r.1.flatten.Subperm cfg.model.leaves := List.subperm_of_subset hn (fun l hl => f2 l hl)
      have hlen : cfg.model.leaves.length ≤ r.1.flatten.length := by
        have : r.2 = cfg.model.leaves.length := by simpa using hr
        omega
      exact (hsp.perm_of_length_le hlen).mem_iff.2 hl
    have e5 : m5.s.fast = m4.s.fast ++ r.1 := by cases h9; rfl
    have e6 : m6.s = m5.s := by
      obtain ⟨w6, _, e6⟩ := inW_ok h11
      rw [e6]
    have e7 : m'.s.fast = m6.s.fast := by
      have := processModel_sim cfg t true true m6
      rw [h12] at this
      have h13 : m'.s = { m6.s with po := m'.s.po } := this
      rw [h13]
    intro l hl
    rw [e7, e6, e5, List.flatten_append]
    exact List.mem_append_right _ (hall l hl)

theorem full_process {cfg : Config K} {t : K} {p q : Bool} {m m' : Machine K} (hf : Full cfg m) (h : processModel cfg t p q m = .ok () m') :
    Full cfg m' := by
  have h1 := processModel_sim cfg t p q m
  rw [h] at h1
  have h2 : m'.s = { m.s with po := m'.s.po } := h1
  have e : m'.s.fast = m.s.fast := by rw [h2]
  intro hs l hl
  rw [e]
  exact hf hs l hl

theorem full_run {cfg : Config K} {n : Nat} {t minH maxH : K} {m m' : Machine K} (hi : m.s.initialized = true) (hf : Full cfg m)
    (h : run cfg n t minH maxH m = .ok () m') : Full cfg m' := by
  let T : Machine K → Machine K → Prop := fun m m' => m'.s.fast = m.s.fast
  have : PreO T := ⟨fun _ => rfl, fun h h' => h'.trans h⟩
  have hc : Covers cfg T := covers_mk (T := AnyW) (fun m m' h => by show m'.s.fast = _; rw [h.2]) (fun _ _ => trivial)
    (fun _ _ _ => trivial) (fun _ _ => trivial) (fun _ _ _ _ => trivial) (fun _ _ _ _ => trivial)
    (fun t m => by show (stateOf (evalModel cfg t m)).s.fast = _; rw [(onEval_eval cfg t m).2]) (fun _ _ => rfl) (fun _ _ => rfl)
  have := hc.run n t minH maxH m hi
  rw [h] at this
  intro hs l hl
  have e : m'.s.fast = m.s.fast := this
  rw [e]
  exact hf hs l hl

end Pooya
