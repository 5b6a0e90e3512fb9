import Verif.Proof.Schedule
import Verif.Proof.Integ

/-! The order found by `FastSimulator::init`. -/

namespace Pooya

set_option linter.unusedSectionVars false

variable {K : Type} [Arith K] {cfg : Config K}

theorem requires_linked {l : Leaf K} (hl : l ∈ cfg.model.leaves) {s : SigId} (h : l.Requires s) : cfg.Links s := by
  obtain ⟨f, hf, _⟩ := h
  exact ⟨.leaf l, (leaf_mem_all _ l).1 hl, f, hf⟩

theorem fastOrder_init (hp : cfg.model.Proper) (hash : ∀ l, (cfg.hash l).Perm l) {t : K} {m m' : Machine K} (hst : cfg.strategy = .fast)
    (hfast : m.s.fast = []) (h : simInit cfg t m = .ok () m') : cfg.FastOrder m'.s.fast.flatten := by
  obtain ⟨lg, hlg, he⟩ := baseInit_eq cfg t m
  unfold simInit at h
  rw [bind_of_ok he, hst] at h
  dsimp only at h
  rw [bind_apply] at h
  simp only [getSim] at h
  obtain ⟨_, m1, h1, h2⟩ := ok_bind h
  obtain ⟨_, m2, h3, h4⟩ := ok_bind h2
  obtain ⟨_, m3, h5, h6⟩ := ok_bind h4
  obtain ⟨r, m4, h7, h8⟩ := ok_bind h6
  obtain ⟨_, m5, h9, h10⟩ := ok_bind h8
  by_cases hr : r.2 ≠ cfg.model.leaves.length
  · rw [if_pos hr] at h10
    cases h10
  · rw [if_neg hr] at h10
    obtain ⟨_, m6, h11, h12⟩ := ok_bind h10
    obtain ⟨w4, g7, e4⟩ := inW_ok ((levels_ok _ _).1 h7)
    have hf := fastOrder_aux (dbg := cfg.dbg) (t := t) (I := cfg.model.leafId) cfg.model.leaves hp.leafNodup
      (fun l hl => List.mem_map_of_mem hl) (cfg.model.leaves.length + 1) m3.w
    rw [g7] at hf
    obtain ⟨f1, f2, _, f4⟩ := hf
    have hb := f1.basic (fun l hl => List.mem_map_of_mem (f2 l hl))
    have hperm : r.1.flatten.Perm cfg.model.leaves := by
      have hn : r.1.flatten.Nodup := List.Nodup.of_map _ hb.nodup
      have hsp : r.1.flatten.Subperm cfg.model.leaves := List.subperm_of_subset hn (fun l hl => f2 l hl)
      have hlen : cfg.model.leaves.length ≤ r.1.flatten.length := by
        have : r.2 = cfg.model.leaves.length := by simpa using hr
        omega
      exact hsp.perm_of_length_le hlen
    have e1 := verify_ok h1
    obtain ⟨w2, g3, e2⟩ := inW_ok h3
    obtain ⟨w3, g5, e3⟩ := inW_ok h5
    have e5 : m5.s.fast = m4.s.fast ++ r.1 := by cases h9; rfl
    have e6 : m6.s = m5.s := by
      obtain ⟨w6, _, e6⟩ := inW_ok h11
      rw [e6]
    have e7 : m'.s.fast = m6.s.fast := by
      have := processModel_sim cfg t true true m6
      rw [h12] at this
      have h13 : m'.s = { m6.s with po := m'.s.po } := this
      rw [h13]
    have e8 : m4.s.fast = [] := by rw [e4, e3, e2, e1]; exact hfast
    have e9 : m'.s.fast.flatten = r.1.flatten := by rw [e7, e6, e5, e8]; rfl
    rw [e9]
    refine ⟨hperm, f1.follows.mono (fun l hl s hreq ha => ?_)⟩
    have hlk := mem_linkedSigs cfg s (requires_linked (hperm.mem_iff.1 hl) hreq)
    by_cases hpre : ∃ l ∈ cfg.model.leaves, s ∈ l.preOuts
    · exact .inr hpre
    · left
      refine ⟨t, ?_⟩
      by_contra hk
      rw [e3] at ha
      have a3 : w3.sig s = w2.sig s := by
        have g5 : cfg.model.preStep cfg.dbg t m2.w = .ok () w3 := g5
        rw [preStep_eq, e2] at g5
        exact preAll_sig g5 (fun l hl ho => hpre ⟨l, hl, ho⟩)
      have a2 : w2.sig s = m1.w.sig s := inputs_sig g3 hk
      have ha : (w3.sig s).assigned = true := ha
      rw [a3, a2, e1] at ha
      dsimp only at ha
      rw [if_pos (List.mem_append_right _ ((hash _).mem_iff.2 hlk))] at ha
      cases ha

end Pooya
