import Verif.Proof.Pack
import Verif.Spec.Integ

/-! What simulators do with integrators. -/

namespace Pooya

set_option linter.unusedSectionVars false

variable {K : Type} [Arith K] {dbg : Bool} {t : K}

theorem state_preOuts {l : Leaf K} {o : SigId} (h : l.state = some o) : o ∈ l.preOuts := by
  unfold Leaf.state at h
  unfold Leaf.preOuts Kind.preOuts
  cases hk : l.kind <;> rw [hk] at h <;> simp at h ⊢
  · exact h.symm
  · exact h.symm

theorem state_cases {l : Leaf K} {o : SigId} (h : l.state = some o) : (∃ x, l.kind = .integrator x o) ∨ ∃ x tr, l.kind = .trigInt x tr o := by
  unfold Leaf.state at h
  cases hk : l.kind <;> rw [hk] at h <;> simp at h
  · subst h; exact .inl ⟨_, rfl⟩
  · subst h; exact .inr ⟨_, _, rfl⟩

theorem integPre_ok {b : BlkId} {o : SigId} {w w' : World K} (h : integPre dbg b o w = .ok () w') :
    w' = { w with sig := upd w.sig o { w.sig o with assigned := true, value := some (w.mem b).value } } := by
  unfold integPre at h
  obtain ⟨a, w1, h1, h2⟩ := ok_bind h
  cases h1
  obtain ⟨_, w2, h3, h4⟩ := ok_bind h2
  have := verify_ok h3
  subst this
  obtain ⟨m, w3, h5, h6⟩ := ok_bind h4
  cases h5
  exact setv_ok h6

theorem zeroLike_eq (v : Val K) : v.zeroLike = v.nought := by
  cases v with
  | array xs => simp [Val.zeroLike, Val.nought]
  | _ => rfl

/-- The members after `pre_step`. -/
def Leaf.afterPre (l : Leaf K) (m : Mem K) : Mem K := if l.pending m then { m with value := m.value.nought, triggered := false } else m

theorem afterPre_value (l : Leaf K) (m : Mem K) : (l.afterPre m).value = l.start m := by
  unfold Leaf.afterPre Leaf.start
  split <;> rfl

theorem integ_pre {l : Leaf K} {o : SigId} (hs : l.state = some o) {w w' : World K} (h : l.pre dbg t w = .ok () w') :
    w'.sig = upd w.sig o { w.sig o with assigned := true, value := some (l.start (w.mem l.id)) } ∧ w'.mem l.id = l.afterPre (w.mem l.id) := by
  rw [pre_apply] at h
  unfold Leaf.preBody at h
  rcases state_cases hs with ⟨x, hk⟩ | ⟨x, tr, hk⟩
  · rw [hk] at h
    have := integPre_ok h
    have hp : l.pending (w.mem l.id) = false := by unfold Leaf.pending; rw [hk]
    unfold Leaf.afterPre Leaf.start
    rw [hp, this]
    exact ⟨rfl, rfl⟩
  · rw [hk] at h
    have hp : l.pending (w.mem l.id) = (w.mem l.id).triggered := by unfold Leaf.pending; rw [hk]
    unfold Leaf.afterPre Leaf.start
    rw [hp]
    obtain ⟨m, w1, h1, h2⟩ := ok_bind h
    cases h1
    dsimp only at h2
    cases ht : (w.mem l.id).triggered with
    | true =>
      rw [if_pos ht] at h2
      obtain ⟨_, w2, h3, h4⟩ := ok_bind h2
      cases h3
      have := integPre_ok h4
      rw [this]
      simp [upd, zeroLike_eq]
    | false =>
      rw [if_neg (by rw [ht]; simp)] at h2
      have := integPre_ok h2
      rw [this]
      simp

theorem integ_post {l : Leaf K} {o : SigId} (hs : l.state = some o) {w w' : World K} (h : l.post dbg t w = .ok () w') :
    ∃ v, (w.sig o).value = some v ∧ w'.mem l.id = { w.mem l.id with value := v } := by
  rw [post_apply] at h
  unfold Leaf.postBody at h
  have key : ∀ {w1 : World K}, integPost dbg l.id o w1 = .ok () w' → ∃ v, (w1.sig o).value = some v ∧ w'.mem l.id = { w1.mem l.id with value := v } := by
    intro w1 h
    unfold integPost at h
    obtain ⟨a, w2, h1, h2⟩ := ok_bind h
    cases h1
    obtain ⟨_, w3, h3, h4⟩ := ok_bind h2
    have := verify_ok h3
    subst this
    obtain ⟨v, w4, h5, h6⟩ := ok_bind h4
    obtain ⟨e1, e2⟩ := getv_ok h5
    subst e1
    obtain ⟨m, w5, h7, h8⟩ := ok_bind h6
    cases h7
    cases h8
    exact ⟨v, e2, by simp [upd]⟩
  rcases state_cases hs with ⟨x, hk⟩ | ⟨x, tr, hk⟩
  · rw [hk] at h
    dsimp only at h
    obtain ⟨v, h1, h2⟩ := key h
    exact ⟨v, h1, h2⟩
  · rw [hk] at h
    dsimp only at h
    obtain ⟨v, h1, h2⟩ := key h
    exact ⟨v, h1, h2⟩

/-- Activation functions of integrators change at most the pending reset. -/
theorem integ_act {l : Leaf K} {o : SigId} (hs : l.state = some o) {w w' : World K} (h : l.act dbg t w = .ok () w') :
    ∃ b, w'.mem l.id = { w.mem l.id with triggered := b } ∧ (∀ x tr, l.kind = .trigInt x tr o →
      (b = true ↔ (w.mem l.id).triggered = true ∨ (w.sig tr).value = some (.bool true))) ∧ (∀ x, l.kind = .integrator x o → b = (w.mem l.id).triggered) := by
  rw [act_apply] at h
  unfold Leaf.actBody at h
  rcases state_cases hs with ⟨x, hk⟩ | ⟨x, tr, hk⟩
  · rw [hk] at h
    cases h
    exact ⟨(w.mem l.id).triggered, rfl, fun x tr hk' => (by rw [hk] at hk'; cases hk'), fun _ _ => rfl⟩
  · rw [hk] at h
    obtain ⟨m, w1, h1, h2⟩ := ok_bind h
    cases h1
    have h2 : (if (w.mem l.id).triggered = true then pure () else getBool dbg tr >>= fun b => setMem l.id { w.mem l.id with triggered := b })
      { w with log := .act l.id t :: w.log } = .ok () w' := h2
    cases ht : (w.mem l.id).triggered with
    | true =>
      rw [ht, if_pos rfl] at h2
      cases h2
      refine ⟨true, ?_, fun _ _ _ => by simp, fun _ _ => rfl⟩
      show w.mem l.id = { w.mem l.id with triggered := true }
      rw [← ht]
    | false =>
      rw [ht, if_neg (by simp)] at h2
      obtain ⟨b, w2, h3, h4⟩ := ok_bind h2
      unfold getBool at h3
      obtain ⟨v, w3, h5, h6⟩ := ok_bind h3
      obtain ⟨e1, e2⟩ := getv_ok h5
      subst e1
      cases v with
      | bool b' =>
        cases h6
        cases h4
        refine ⟨b, by simp [upd], ?_, fun x hk' => (by rw [hk] at hk'; cases hk')⟩
        intro x' tr' hk'
        rw [hk] at hk'
        cases hk'
        have e2 : (w.sig tr).value = some (.bool b) := e2
        rw [e2]
        cases b <;> simp
      | int _ => cases h6
      | scalar _ => cases h6
      | array _ => cases h6

/-- The value kept by an integrator during activations. -/
theorem acts_integ {l : Leaf K} {o : SigId} (hs : l.state = some o) {w w' : World K} {ls : List (Leaf K)} (h : Acts dbg t w ls w')
    (hid : ∀ l' ∈ ls, l'.id = l.id → l' = l) : ∃ b, w'.mem l.id = { w.mem l.id with triggered := b } ∧
      ((∃ x, l.kind = .integrator x o) → b = (w.mem l.id).triggered) := by
  induction h with
  | nil hf => exact ⟨_, by rw [hf.mem], fun _ => rfl⟩
  | @cons l' w w0 w1 w' ls hf ha _ ih =>
    obtain ⟨b, h1, h2⟩ := ih (fun l'' hl => hid l'' (by simp [hl]))
    by_cases he : l'.id = l.id
    · have := hid l' (by simp) he
      subst this
      obtain ⟨b', h3, h4, h5⟩ := integ_act hs ha
      refine ⟨b, by rw [h1, h3, hf.mem], fun hx => ?_⟩
      rw [h2 hx, h3]
      obtain ⟨x, hx⟩ := hx
      rw [h5 x hx, hf.mem]
    · have e : w1.mem l.id = w.mem l.id := by
        rw [(act_within ha).mem _ (fun e => he e.symm)]
        exact congrFun hf.mem l.id
      rw [e] at h1 h2
      exact ⟨b, h1, h2⟩

variable {cfg : Config K}

theorem preStep_integ (hp : cfg.model.Proper) {l : Leaf K} (hl : l ∈ cfg.model.leaves) {o : SigId} (hs : l.state = some o)
    (hd : ∀ l' ∈ cfg.model.leaves, o ∈ l'.preOuts → l'.id = l.id) {w w' : World K} (h : cfg.model.preStep dbg t w = .ok () w') :
    (w'.sig o).assigned = true ∧ (w'.sig o).value = some (l.start (w.mem l.id)) ∧ w'.mem l.id = l.afterPre (w.mem l.id) := by
  obtain ⟨wa, wb, l2, h1, h2, h3, h4, h5⟩ := preStep_leaf hp h hl
  obtain ⟨g1, g2⟩ := integ_pre hs h1
  have e : w'.sig o = wb.sig o := preAll_sig h4 (fun x hx ho => (h5 x hx).2 (hd x (h5 x hx).1 ho))
  rw [e, g1, h3, g2, h2]
  simp [upd]

theorem postStep_integ (hp : cfg.model.Proper) {l : Leaf K} (hl : l ∈ cfg.model.leaves) {o : SigId} (hs : l.state = some o)
    {w w' : World K} (h : cfg.model.postStep dbg t w = .ok () w') :
    ∃ v, (w'.sig o).value = some v ∧ w'.mem l.id = { w.mem l.id with value := v } := by
  obtain ⟨wa, wb, h1, h2, h3, h4⟩ := postStep_leaf hp h hl
  obtain ⟨v, g1, g2⟩ := integ_post hs h1
  refine ⟨v, ?_, by rw [h4, g2, h2]⟩
  rw [postStep_sig h, ← h3]; exact g1

theorem leaf_eq (hp : cfg.model.Proper) {l l' : Leaf K} (h : l ∈ cfg.model.leaves) (h' : l' ∈ cfg.model.leaves) (e : l.id = l'.id) : l = l' :=
  List.inj_on_of_nodup_map hp.leafNodup h h' e

theorem inputs_sig {w w' : World K} (h : callInputs cfg t w = .ok () w') {s : SigId} (hs : s ∉ cfg.inputKeys t) : w'.sig s = w.sig s := by
  have := inputs_sigOnly cfg t w
  rw [h] at this
  exact this s hs

/-- An evaluation does not touch a signal without drivers. -/
theorem process_sig (hp : cfg.model.Proper) {p q : Bool} {m m' : Machine K} (hm : Mid cfg m) (h : processModel cfg t p q m = .ok () m') {s : SigId}
    (hi : s ∉ cfg.inputKeys t) (hpre : p = true → ∀ l ∈ cfg.model.leaves, s ∉ l.preOuts) (ho : ∀ l ∈ cfg.model.leaves, s ∉ l.outs) :
    m'.w.sig s = m.w.sig s := by
  obtain ⟨w1, w2, m3, h1, h2, h3, h4⟩ := processModel_ok h
  have hm1 : Mid cfg { m with w := w1 } := mid_of ((covers_mid cfg).inputs t) hm (by show inW _ m = _; unfold inW; rw [h1])
  have e2 : w2.sig s = w1.sig s ∧ Mid cfg { m with w := w2 } := by
    cases p with
    | false => rw [if_neg (by simp)] at h2; rw [h2]; exact ⟨rfl, hm1⟩
    | true =>
      rw [if_pos rfl] at h2
      refine ⟨?_, mid_of ((covers_mid cfg).pre t) hm1 (by show inW _ _ = _; unfold inW; dsimp only; rw [h2])⟩
      rw [preStep_eq] at h2
      exact preAll_sig h2 (hpre rfl)
  obtain ⟨ls, a1, _, a3, _⟩ := eval_acts hp e2.2 h3
  have e3 : m3.w.sig s = w2.sig s := a1.sig (fun l hl => ho l (a3 l hl))
  have e4 : m'.w.sig s = m3.w.sig s := by
    cases q with
    | false => rw [if_neg (by simp)] at h4; rw [h4]
    | true =>
      rw [if_pos rfl] at h4
      obtain ⟨w4, h4, rfl⟩ := h4
      exact congrFun (postStep_sig h4) s
  rw [e4, e3, e2.1, inputs_sig h1 hi]

/-- The members of an integrator after an evaluation, in terms of those before. -/
theorem process_integ (hp : cfg.model.Proper) {l : Leaf K} (hl : l ∈ cfg.model.leaves) {o : SigId} (hs : l.state = some o)
    {p q : Bool} {m m' : Machine K} (hm : Mid cfg m) (h : processModel cfg t p q m = .ok () m') :
    ∃ (v : Val K) (b : Bool), m'.w.mem l.id = { (if p then l.afterPre (m.w.mem l.id) else m.w.mem l.id) with value := v, triggered := b } ∧
      (if q then m'.value o = some v else v = (if p then l.start (m.w.mem l.id) else (m.w.mem l.id).value)) ∧
      ((∃ x, l.kind = .integrator x o) → b = (m.w.mem l.id).triggered) := by
  obtain ⟨w1, w2, m3, h1, h2, h3, h4⟩ := processModel_ok h
  have hm1 : Mid cfg { m with w := w1 } := mid_of ((covers_mid cfg).inputs t) hm (by show inW _ m = _; unfold inW; rw [h1])
  have hnp : (∃ x, l.kind = .integrator x o) → ∀ mm, l.afterPre mm = mm := by
    rintro ⟨x, hk⟩ mm
    unfold Leaf.afterPre Leaf.pending
    rw [hk]; rfl
  have e2 : w2.mem l.id = (if p then l.afterPre (m.w.mem l.id) else m.w.mem l.id) ∧ Mid cfg { m with w := w2 } := by
    cases p with
    | false => rw [if_neg (by simp)] at h2; rw [h2, inputs_mem h1]; exact ⟨rfl, hm1⟩
    | true =>
      rw [if_pos rfl] at h2
      refine ⟨?_, mid_of ((covers_mid cfg).pre t) hm1 (by show inW _ _ = _; unfold inW; dsimp only; rw [h2])⟩
      obtain ⟨wa, wb, l2, k1, k2, k3, _⟩ := preStep_leaf hp h2 hl
      rw [k3, (integ_pre hs k1).2, k2, inputs_mem h1]; rfl
  obtain ⟨ls, a1, _, a3, _⟩ := eval_acts hp e2.2 h3
  obtain ⟨b, b1, b2⟩ := acts_integ hs a1 (fun l' hl' e => leaf_eq hp (a3 l' hl') hl e)
  have b1 : m3.w.mem l.id = { w2.mem l.id with triggered := b } := b1
  rw [e2.1] at b1
  have hb : (∃ x, l.kind = .integrator x o) → b = (m.w.mem l.id).triggered := by
    intro hx
    rw [b2 hx]
    show (w2.mem l.id).triggered = _
    rw [e2.1]
    cases p with
    | false => rfl
    | true => rw [if_pos rfl, hnp hx]
  cases q with
  | false =>
    rw [if_neg (by simp)] at h4
    rw [h4]
    refine ⟨_, b, by rw [b1], ?_, hb⟩
    cases p with
    | false => rfl
    | true => exact afterPre_value _ _
  | true =>
    rw [if_pos rfl] at h4
    obtain ⟨w4, h4, rfl⟩ := h4
    obtain ⟨v, g1, g2⟩ := postStep_integ hp hl hs h4
    exact ⟨v, b, by show w4.mem l.id = _; rw [g2, b1], g1, hb⟩

end Pooya
