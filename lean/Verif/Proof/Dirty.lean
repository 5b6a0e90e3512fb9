import Verif.Proof.Twin
import Verif.Proof.Order
import Verif.Proof.FastInit
import Verif.Spec.Variant

/-! Diagrams whose blocks are marked as processed from earlier simulations. -/

namespace Pooya

set_option linter.unusedSectionVars false

variable {K : Type} [Arith K] {cfg : Config K} {X : BlkId → Prop}

/-- The diagrams differ at most in the `_processed` flags of the blocks in `X`. -/
structure Dirty (X : BlkId → Prop) (w1 w2 : World K) : Prop where
  sig : w1.sig = w2.sig
  mem : w1.mem = w2.mem
  log : w1.log = w2.log
  done : ∀ b, ¬ X b → w1.done b = w2.done b

theorem Dirty.eq {w1 w2 : World K} (h : Dirty (fun _ => False) w1 w2) : w1 = w2 := by
  obtain ⟨a, b, c, d⟩ := w1
  obtain ⟨a', b', c', d'⟩ := w2
  obtain ⟨h1, h2, h3, h4⟩ := h
  simp only at h1 h2 h3 h4
  subst h1 h2 h3
  congr 1
  exact funext (fun x => h4 x (fun h => h))

theorem dirty_core (X : BlkId → Prop) (d : Bool) : TwinCore (K := K) false (Dirty X) d d where
  mode := .inl rfl
  tys w1 w2 h s := by rw [h.sig]
  asgs w1 w2 h s := by rw [h.sig]
  getv s := by
    intro w1 w2 h
    unfold getv
    rw [h.sig]
    split
    · exact .inr ⟨rfl, h⟩
    · split
      · exact .inr ⟨rfl, h⟩
      · exact ⟨rfl, h⟩
  setv s v := by
    intro w1 w2 h
    unfold setv
    rw [h.sig]
    split
    · exact .inr ⟨rfl, h⟩
    · split
      · exact .inr ⟨rfl, h⟩
      · split
        · exact .inr ⟨rfl, h⟩
        · exact ⟨rfl, rfl, h.mem, h.log, h.done⟩
  clearv s := by
    intro w1 w2 h
    exact ⟨rfl, by simp only; rw [h.sig], h.mem, h.log, h.done⟩
  getMem b := by
    intro w1 w2 h
    exact ⟨by rw [h.mem], h⟩
  setMem b m := by
    intro w1 w2 h
    exact ⟨rfl, h.sig, by simp only; rw [h.mem], h.log, h.done⟩
  emit e := by
    intro w1 w2 h
    exact ⟨rfl, h.sig, h.mem, by simp only; rw [h.log], h.done⟩

/-- `_mark_unprocessed` sets all flags. -/
theorem dirty_mark (b : Block K) : ∀ (X : BlkId → Prop) (w1 w2 : World K), Dirty X w1 w2 →
    ∃ w1' w2', b.mark w1 = .ok () w1' ∧ b.mark w2 = .ok () w2' ∧ Dirty (fun x => X x ∧ x ∉ b.ids) w1' w2' := by
  have hset : ∀ (i : BlkId) (d : Bool) (X : BlkId → Prop) (w1 w2 : World K), Dirty X w1 w2 →
      Dirty (fun x => X x ∧ x ≠ i) { w1 with done := upd w1.done i d } { w2 with done := upd w2.done i d } := by
    intro i d X w1 w2 h
    refine ⟨h.sig, h.mem, h.log, fun x hx => ?_⟩
    simp only [upd]
    split
    · rfl
    · exact h.done x (fun hX => hx ⟨hX, by assumption⟩)
  refine Block.rec (motive_1 := fun b => ∀ (X : BlkId → Prop) (w1 w2 : World K), Dirty X w1 w2 →
      ∃ w1' w2', b.mark w1 = .ok () w1' ∧ b.mark w2 = .ok () w2' ∧ Dirty (fun x => X x ∧ x ∉ b.ids) w1' w2')
    (motive_2 := fun bs => ∀ (X : BlkId → Prop) (w1 w2 : World K), Dirty X w1 w2 →
      ∃ w1' w2', markL bs w1 = .ok () w1' ∧ markL bs w2 = .ok () w2' ∧ Dirty (fun x => X x ∧ x ∉ idsL bs) w1' w2') ?_ ?_ ?_ ?_ b
  · intro l X w1 w2 h
    refine ⟨_, _, rfl, rfl, ?_⟩
    rw [ids_leaf]
    simp only [List.mem_singleton]
    exact hset l.id _ X w1 w2 h
  · intro i ls kids ih X w1 w2 h
    obtain ⟨w1', w2', e1, e2, h'⟩ := ih _ _ _ (hset i false X w1 w2 h)
    refine ⟨w1', w2', ?_, ?_, ⟨h'.sig, h'.mem, h'.log, fun x hx => h'.done x (fun hy => hx ⟨hy.1.1, ?_⟩)⟩⟩
    · simp only [Block.mark, bind_apply, setDone]; exact e1
    · simp only [Block.mark, bind_apply, setDone]; exact e2
    · rw [ids_sub, List.mem_cons]; exact fun h => h.elim hy.1.2 hy.2
  · intro X w1 w2 h
    exact ⟨w1, w2, rfl, rfl, ⟨h.sig, h.mem, h.log, fun x hx => h.done x (fun hX => hx ⟨hX, by rw [idsL_nil]; simp⟩)⟩⟩
  · intro b bs h1 h2 X w1 w2 h
    obtain ⟨a1, a2, e1, e2, h'⟩ := h1 X w1 w2 h
    obtain ⟨b1, b2, f1, f2, h''⟩ := h2 _ a1 a2 h'
    refine ⟨b1, b2, ?_, ?_, ⟨h''.sig, h''.mem, h''.log, fun x hx => h''.done x (fun hy => hx ⟨hy.1.1, ?_⟩)⟩⟩
    · simp only [markL]; rw [bind_of_ok e1]; exact f1
    · simp only [markL]; rw [bind_of_ok e2]; exact f2
    · rw [idsL_cons, List.mem_append]; exact fun h => h.elim hy.1.2 hy.2

/-- Both return with the same result, or both throw the same. -/
def SameRes {σ α : Type} : EStateM.Result Err σ α → EStateM.Result Err σ α → Prop
  | .ok a s, .ok b s' => a = b ∧ s = s'
  | .error e _, .error e' _ => e = e'
  | _, _ => False

theorem SameRes.of_eq {σ α : Type} {r r' : EStateM.Result Err σ α} (h : r = r') : SameRes r r' := by
  subst h; cases r <;> simp [SameRes]

theorem TwinOut.bind_res {α β : Type} {R : Machine K → Machine K → Prop} {x y : MM K α} {f : α → MM K β} {m1 m2 : Machine K}
    (h : TwinOut false R (x m1) (y m2)) (hf : ∀ a m1' m2', R m1' m2' → SameRes (f a m1') (f a m2')) : SameRes ((x >>= f) m1) ((y >>= f) m2) := by
  rw [bind_apply, bind_apply]
  cases h1 : x m1 with
  | ok a n1 =>
    cases h2 : y m2 with
    | ok b n2 => rw [h1, h2] at h; obtain ⟨rfl, hr⟩ := h; exact hf a n1 n2 hr
    | error e n2 => rw [h1, h2] at h; exact h.elim
  | error e n1 =>
    cases h2 : y m2 with
    | ok b n2 => rw [h1, h2] at h; cases h
    | error e n2 => rw [h1, h2] at h; exact (h.resolve_left (by simp)).1

/-- An evaluation does not depend on the flags of the blocks of the model. -/
theorem dirty_eval (hst : cfg.strategy ≠ .fast) (t : K) {m1 m2 : Machine K} (h : TwinPrims.onM (Dirty (fun b => b ∈ cfg.model.ids)) m1 m2) :
    evalModel cfg t m1 = evalModel cfg t m2 := by
  obtain ⟨w1, w2, e1, e2, h'⟩ := dirty_mark cfg.model _ _ _ h.1
  have hw : w1 = w2 := Dirty.eq ⟨h'.sig, h'.mem, h'.log, fun b _ => h'.done b (fun hb => hb.2 hb.1)⟩
  have hm : inW cfg.model.mark m1 = inW cfg.model.mark m2 := by
    unfold inW; rw [e1, e2, hw, h.2]
  unfold evalModel
  cases hs : cfg.strategy with
  | plain => simp only [bind_apply, hm]
  | reuse => simp only [bind_apply, hm]
  | fast => exact (hst hs).elim

theorem dirty_process (hst : cfg.strategy ≠ .fast) (t : K) (p q : Bool) {m1 m2 : Machine K} (h : TwinPrims.onM (Dirty (fun b => b ∈ cfg.model.ids)) m1 m2) :
    SameRes (processModel cfg t p q m1) (processModel cfg t p q m2) := by
  have hc := dirty_core (K := K) (fun b => b ∈ cfg.model.ids) cfg.dbg
  have hce : TwinPrims.ConfigEq cfg cfg := rfl
  unfold processModel
  refine TwinOut.bind_res (TwinPrims.inW (hc.callInputs hce t) m1 m2 h) (fun _ n1 n2 hn => ?_)
  have key : ∀ {n1 n2 : Machine K}, TwinPrims.onM (Dirty (fun b => b ∈ cfg.model.ids)) n1 n2 →
      SameRes ((do evalModel cfg t; if q then inW (cfg.model.postStep cfg.dbg t) else pure ()) n1)
        ((do evalModel cfg t; if q then inW (cfg.model.postStep cfg.dbg t) else pure ()) n2) := by
    intro n1 n2 hn
    refine SameRes.of_eq ?_
    rw [bind_apply, bind_apply, dirty_eval hst t hn]
  cases p with
  | false => exact key hn
  | true => exact TwinOut.bind_res (TwinPrims.inW (hc.preStep cfg.model t) n1 n2 hn) (fun _ k1 k2 hk => key hk)

theorem dirty_init (hst : cfg.strategy ≠ .fast) (t0 : K) {m1 m2 : Machine K} (h : TwinPrims.onM (Dirty (fun b => b ∈ cfg.model.ids)) m1 m2) :
    SameRes (simInit cfg t0 m1) (simInit cfg t0 m2) := by
  have hc := dirty_core (K := K) (fun b => b ∈ cfg.model.ids) cfg.dbg
  have hce : TwinPrims.ConfigEq cfg cfg := rfl
  unfold simInit
  refine TwinOut.bind_res (hc.baseInit hce t0 m1 m2 h) (fun _ n1 n2 hn => ?_)
  cases hs : cfg.strategy with
  | plain => exact dirty_process hst t0 true true hn
  | fast => exact (hst hs).elim
  | reuse =>
    dsimp only
    rw [bind_apply, bind_apply]
    simp only [getSim]
    rw [hn.2]
    split
    · refine TwinOut.bind_res (Twin.verify (part := false) (.inl rfl) _ _ n1 n2 hn) (fun _ k1 k2 hk => ?_)
      exact TwinOut.bind_res (TwinPrims.setSim (part := false) _ k1 k2 hk) (fun _ j1 j2 hj => dirty_process hst t0 true true hj)
    · exact dirty_process hst t0 true true hn

theorem SameRes.bind {σ α β : Type} {x y : EStateM Err σ α} {f : α → EStateM Err σ β} {s1 s2 : σ} (h : SameRes (x s1) (y s2)) :
    SameRes ((x >>= f) s1) ((y >>= f) s2) := by
  rw [bind_apply, bind_apply]
  cases h1 : x s1 <;> cases h2 : y s2 <;> rw [h1, h2] at h
  · obtain ⟨rfl, rfl⟩ := h; exact SameRes.of_eq rfl
  · exact h.elim
  · exact h.elim
  · exact h

theorem dirty_simulate (hst : cfg.strategy ≠ .fast) (t0 : K) (as : List (RunArgs K)) {m1 m2 : Machine K}
    (h : TwinPrims.onM (Dirty (fun b => b ∈ cfg.model.ids)) m1 m2) : SameRes (simulate cfg t0 as m1) (simulate cfg t0 as m2) :=
  SameRes.bind (dirty_init hst t0 h)

/-- `FastSimulator::init` rejects a model with a block that is marked as processed. -/
theorem fast_rejects (hp : cfg.model.Proper) (hst : cfg.strategy = .fast) (t0 : K) {m m' : Machine K} {l : Leaf K} (hl : l ∈ cfg.model.leaves)
    (hd : m.w.done l.id = true) : simInit cfg t0 m ≠ .ok () m' := by
  intro h
  obtain ⟨m1, he, hdone⟩ : ∃ m1, baseInit cfg t0 m = .ok () m1 ∧ m1.w.done = m.w.done := by
    obtain ⟨lg, _, he⟩ := baseInit_eq cfg t0 m
    exact ⟨_, he, rfl⟩
  unfold simInit at h
  rw [bind_of_ok he, hst] at h
  dsimp only at h
  rw [bind_apply] at h
  simp only [getSim] at h
  obtain ⟨_, m2, h1, h2⟩ := ok_bind h
  have e2 := verify_ok h1
  subst e2
  obtain ⟨_, m3, h3, h4⟩ := ok_bind h2
  obtain ⟨w3, g3, e3⟩ := inW_ok h3
  obtain ⟨_, m4, h5, h6⟩ := ok_bind h4
  obtain ⟨w4, g4, e4⟩ := inW_ok h5
  obtain ⟨r, m5, h7, h8⟩ := ok_bind h6
  obtain ⟨w5, g5, e5⟩ := inW_ok ((levels_ok _ _).1 h7)
  obtain ⟨_, m6, h9, h10⟩ := ok_bind h8
  have hf := fastOrder_aux (dbg := cfg.dbg) (t := t0) (I := cfg.model.leafId) cfg.model.leaves hp.leafNodup
    (fun l hl => List.mem_map_of_mem hl) (cfg.model.leaves.length + 1) m4.w
  rw [g5] at hf
  obtain ⟨f1, f2, _, f4⟩ := hf
  have hbs := f1.basic (fun l hl => List.mem_map_of_mem (f2 l hl))
  by_cases hr : r.2 ≠ cfg.model.leaves.length
  · rw [if_pos hr] at h10; cases h10
  have hr : r.2 = cfg.model.leaves.length := by simpa using hr
  have hperm : r.1.flatten.Perm cfg.model.leaves := by
    have hn : r.1.flatten.Nodup := List.Nodup.of_map _ hbs.nodup
    exact (List.subperm_of_subset hn (fun l hl => f2 l hl)).perm_of_length_le (by omega)
  have hfr := hbs.fresh l (hperm.mem_iff.2 hl)
  have a1 := done_inputs cfg t0
  have a2 := done_pre cfg.dbg t0 cfg.model
  have k4 : w4.done = m3.w.done := by have := a2 m3.w; rw [g4] at this; exact this
  have hw3 : m3.w = w3 := by rw [e3]
  have k3 : w3.done = m.w.done := by
    have := a1 m2.w
    rw [g3] at this
    rw [← hdone]
    exact this
  have hw4 : m4.w = w4 := by rw [e4]
  rw [hw4, k4, hw3, k3, hd] at hfr
  cases hfr

end Pooya
