import Verif.Proof.Trigger
import Verif.Spec.Equations

/-! An activation function makes the equation of its block true (debug builds). -/

namespace Pooya

set_option linter.unusedSectionVars false

variable {K : Type} [Arith K] {t : K}

theorem both_of_lift2 {f : K → K → K} {a b r : Val K} (h : Val.lift2 f a b = .ok r) : Both f a b r := by
  unfold Val.lift2 at h
  split at h
  · cases h; exact .scalar _ _
  · rename_i xs ys
    split at h
    · rename_i hl
      cases h
      have hx : xs = List.ofFn (fun i : Fin xs.length => xs[i]) := by simp
      have hy : ys = List.ofFn (fun i : Fin xs.length => ys[i.1]'(by have := i.2; omega)) := by
        refine List.ext_getElem (by simp [hl]) (fun i h1 h2 => by simp)
      have key := Both.array (f := f) (fun i : Fin xs.length => xs[i]) (fun i : Fin xs.length => ys[i.1]'(by have := i.2; omega))
      rw [← hx, ← hy] at key
      have hz : List.zipWith f xs ys = List.ofFn (fun i : Fin xs.length => f xs[i] (ys[i.1]'(by have := i.2; omega))) := by
        refine List.ext_getElem (by simp [hl]) (fun i h1 h2 => by simp)
      rw [hz]; exact key
    · cases h
  · cases h

theorem scaled_of_gain {k a r : Val K} (h : Val.gain k a = .ok r) : Scaled k a r := by
  unfold Val.gain at h
  split at h
  · cases h; exact .scalar _ _
  · split at h
    · cases h; exact .int _ _
    · cases h
  · rename_i k xs
    cases h
    have hx : xs = List.ofFn (fun i : Fin xs.length => xs[i]) := by simp
    have key := Scaled.array k (fun i : Fin xs.length => xs[i])
    rw [← hx] at key
    have hz : xs.map (fun x => k *. x) = List.ofFn (fun i : Fin xs.length => k *. xs[i]) := by
      refine List.ext_getElem (by simp) (fun i h1 h2 => by simp)
    rw [hz]; exact key
  · cases h

theorem getv_shown {s : SigId} {v : Val K} {w w' : World K} (h : getv true s w = .ok v w') : w' = w ∧ w.shown s = some v := by
  obtain ⟨e1, e2⟩ := getv_ok h
  refine ⟨e1, ?_⟩
  unfold getv at h
  split at h
  · cases h
  · rename_i hn
    have : (w.sig s).assigned = true := by simpa using hn
    unfold World.shown
    rw [if_pos this, e2]

theorem setv_shown {s : SigId} {v : Val K} {w w' : World K} (h : setv true s v w = .ok () w') : w'.shown s = some v ∧ Kept w w' := by
  have hk := kept_setv s v w
  rw [h] at hk
  refine ⟨?_, hk⟩
  rw [setv_ok h]
  simp [World.shown, upd]

theorem Kept.shown {w w' : World K} (h : Kept w w') {s : SigId} {v : Val K} (hs : w.shown s = some v) : w'.shown s = some v := by
  unfold World.shown at hs ⊢
  cases ha : (w.sig s).assigned with
  | false => rw [ha] at hs; cases hs
  | true => rw [h s ha]; exact hs

theorem liftE_inv {σ α : Type} {x : Except Err α} {a : α} {s s' : σ} (h : (liftE x : EStateM Err σ α) s = .ok a s') : x = .ok a ∧ s' = s := by
  cases x with
  | ok b => cases h; exact ⟨rfl, rfl⟩
  | error e => cases h

theorem foldIns_folded {f : K → K → K} {acc r : Val K} {ss : List SigId} {w w' : World K}
    (h : foldIns true (Val.lift2 f) acc ss w = .ok r w') : w' = w ∧ Folded w.shown f acc ss r := by
  induction ss generalizing acc with
  | nil => cases h; exact ⟨rfl, .nil _⟩
  | cons s ss ih =>
    unfold foldIns at h
    obtain ⟨v, w1, h1, h2⟩ := ok_bind h
    obtain ⟨rfl, e1⟩ := getv_shown h1
    obtain ⟨acc', w2, h3, h4⟩ := ok_bind h2
    obtain ⟨e2, rfl⟩ := liftE_inv h3
    obtain ⟨e3, e4⟩ := ih h4
    exact ⟨e3, .cons e1 (both_of_lift2 e2) e4⟩

theorem getAll_shows {ss : List SigId} {vs : List (Val K)} {w w' : World K} (h : getAll true ss w = .ok vs w') : w' = w ∧ Shows w.shown ss vs := by
  induction ss generalizing vs with
  | nil => cases h; exact ⟨rfl, .nil⟩
  | cons s ss ih =>
    unfold getAll at h
    obtain ⟨v, w1, h1, h2⟩ := ok_bind h
    obtain ⟨rfl, e1⟩ := getv_shown h1
    obtain ⟨vs', w2, h3, h4⟩ := ok_bind h2
    cases h4
    obtain ⟨e3, e2⟩ := ih h3
    exact ⟨e3, .cons e1 e2⟩

theorem setAll_given {ss : List SigId} {vs : List (Option (Val K))} {w w' : World K} (h : setAll true ss vs w = .ok () w') :
    Given w'.shown ss vs ∧ Kept w w' := by
  have hk := kept_setAll ss vs w
  rw [h] at hk
  refine ⟨?_, hk⟩
  clear hk
  induction ss generalizing vs w with
  | nil => intro i s v hi; simp at hi
  | cons s ss ih =>
    cases vs with
    | nil => intro i s v _ hv; simp at hv
    | cons o vs =>
      cases o with
      | none =>
        intro i s' v hi hv
        cases i with
        | zero => simp at hv
        | succ i => exact ih h i s' v (by simpa using hi) (by simpa using hv)
      | some u =>
        unfold setAll at h
        obtain ⟨_, w1, h1, h2⟩ := ok_bind h
        intro i s' v hi hv
        cases i with
        | zero =>
          simp only [List.getElem?_cons_zero, Option.some.injEq] at hi hv
          subst hi hv
          have hk := kept_setAll ss vs w1
          rw [h2] at hk
          exact Kept.shown hk (setv_shown h1).1
        | succ i => exact ih h2 i s' v (by simpa using hi) (by simpa using hv)

theorem Folded.mono {w w' : World K} (h : Kept w w') {f : K → K → K} {acc r : Val K} {ss : List SigId} (hf : Folded w.shown f acc ss r) :
    Folded w'.shown f acc ss r := by
  induction hf with
  | nil acc => exact .nil _
  | cons h1 h2 _ ih => exact .cons (h.shown h1) h2 ih

theorem Shows.mono {w w' : World K} (h : Kept w w') {ss : List SigId} {vs : List (Val K)} (hf : Shows w.shown ss vs) : Shows w'.shown ss vs := by
  induction hf with
  | nil => exact .nil
  | cons h1 _ ih => exact .cons (h.shown h1) ih

theorem Given.mono {w w' : World K} (h : Kept w w') {ss : List SigId} {vs : List (Option (Val K))} (hf : Given w.shown ss vs) : Given w'.shown ss vs :=
  fun i s v h1 h2 => h.shown (hf i s v h1 h2)

/-- An equation that is true remains true. -/
theorem Solved.mono {l : Leaf K} {mem : Mem K} {w w' : World K} (h : Kept w w') (hs : l.Solved t mem w.shown) : l.Solved t mem w'.shown := by
  unfold Leaf.Solved at hs ⊢
  cases hk : l.kind with
  | const v o => rw [hk] at hs; exact h.shown hs
  | source f o => rw [hk] at hs; obtain ⟨v, h1, h2⟩ := hs; exact ⟨v, h1, h.shown h2⟩
  | sources f os => rw [hk] at hs; exact ⟨hs.1, hs.2.mono h⟩
  | gain k x o => rw [hk] at hs; obtain ⟨a, r, h1, h2, h3⟩ := hs; exact ⟨a, r, h.shown h1, h2, h.shown h3⟩
  | add i ins o => rw [hk] at hs; obtain ⟨r, h1, h2⟩ := hs; exact ⟨r, h1.mono h, h.shown h2⟩
  | multiply i ins o => rw [hk] at hs; obtain ⟨r, h1, h2⟩ := hs; exact ⟨r, h1.mono h, h.shown h2⟩
  | subtract a b o => rw [hk] at hs; obtain ⟨a, b, r, h1, h2, h3, h4⟩ := hs; exact ⟨a, b, r, h.shown h1, h.shown h2, h3, h.shown h4⟩
  | divide a b o => rw [hk] at hs; obtain ⟨a, b, r, h1, h2, h3, h4⟩ := hs; exact ⟨a, b, r, h.shown h1, h.shown h2, h3, h.shown h4⟩
  | pipe x o => rw [hk] at hs; obtain ⟨v, h1, h2⟩ := hs; exact ⟨v, h.shown h1, h.shown h2⟩
  | memory x o => rw [hk] at hs; exact h.shown hs
  | delay ls x d i o =>
    rw [hk] at hs
    dsimp only at hs ⊢
    by_cases ht : mem.ts = []
    · rw [if_pos ht] at hs ⊢
      obtain ⟨v, h1, h2⟩ := hs; exact ⟨v, h.shown h1, h.shown h2⟩
    · rw [if_neg ht] at hs ⊢
      obtain ⟨dv, r, h1, h2, init, h3, h4⟩ := hs
      exact ⟨dv, r, h.shown h1, h.shown h2, init, h3, fun h5 => h.shown (h4 h5)⟩
  | derivative x o =>
    rw [hk] at hs
    dsimp only at hs ⊢
    by_cases hf : mem.firstStep = true
    · rw [if_pos hf] at hs ⊢; exact h.shown hs
    · rw [if_neg hf] at hs ⊢
      obtain ⟨t0, h1, h2⟩ := hs
      refine ⟨t0, h1, ?_⟩
      by_cases ht : (t0 ==. t) = true
      · rw [if_pos ht] at h2 ⊢; exact h.shown h2
      · rw [if_neg ht] at h2 ⊢
        obtain ⟨v, v0, r, g1, g2, g3, g4⟩ := h2
        exact ⟨v, v0, r, h.shown g1, g2, g3, h.shown g4⟩
  | integrator x o => trivial
  | trigInt x tr o => trivial
  | siso f x o => rw [hk] at hs; obtain ⟨v, r, h1, h2, h3⟩ := hs; exact ⟨v, r, h.shown h1, h2, h.shown h3⟩
  | so f rs o => rw [hk] at hs; obtain ⟨vs, r, h1, h2, h3⟩ := hs; exact ⟨vs, r, h1.mono h, h2, h.shown h3⟩
  | func f rs os => rw [hk] at hs; obtain ⟨vs, h1, h2, h3⟩ := hs; exact ⟨vs, h1.mono h, h2, h3.mono h⟩
  | builder => trivial
  | custom c => rw [hk] at hs; obtain ⟨vs, r, h1, h2, h3⟩ := hs; exact ⟨vs, r, h1.mono h, h2, h3.mono h⟩

theorem vecAt_ok {σ α : Type} {l : List α} {i : Nat} {a : α} {s s' : σ} (h : (vecAt l i : EStateM Err σ α) s = .ok a s') : l[i]? = some a ∧ s' = s := by
  unfold vecAt at h
  cases hl : l[i]? with
  | none => rw [hl] at h; cases h
  | some b => rw [hl] at h; cases h; exact ⟨rfl, rfl⟩

theorem getScalar_shown {s : SigId} {x : K} {w w' : World K} (h : getScalar true s w = .ok x w') : w' = w ∧ w.shown s = some (.scalar x) := by
  unfold getScalar at h
  obtain ⟨v, w1, h1, h2⟩ := ok_bind h
  obtain ⟨rfl, e⟩ := getv_shown h1
  cases v with
  | scalar y => cases h2; exact ⟨rfl, e⟩
  | bool _ => cases h2
  | int _ => cases h2
  | array _ => cases h2

/-- Where `countBefore` stops. -/
theorem countBefore_spec (q : K) (ts : List K) :
    (∀ (j : Nat) (s : K), j < countBefore q ts → ts[j]? = some s → (q <=. s) = false) ∧ (∀ s : K, ts[countBefore q ts]? = some s → (q <=. s) = true) := by
  unfold countBefore
  induction ts with
  | nil => simp
  | cons a as ih =>
    cases h : (q <=. a) with
    | true =>
      have e : ((a :: as).takeWhile (fun v => !(q <=. v))) = [] := by simp [h]
      rw [e]
      simp [h]
    | false =>
      have e : ((a :: as).takeWhile (fun v => !(q <=. v))) = a :: as.takeWhile (fun v => !(q <=. v)) := by simp [h]
      rw [e]
      constructor
      · intro j s hj hs
        cases j with
        | zero => simp only [List.getElem?_cons_zero, Option.some.injEq] at hs; subst hs; exact h
        | succ j => exact ih.1 j s (by simpa using hj) (by simpa using hs)
      · intro s hs
        exact ih.2 s (by simpa using hs)

theorem delay_solved {b : BlkId} {d i o : SigId} {w w' : World K} (h : delayAct true b t d i o w = .ok () w') :
    if (w.mem b).ts = [] then ∃ v, w'.shown i = some v ∧ w'.shown o = some v
    else ∃ dv r, w'.shown d = some (.scalar dv) ∧ w'.shown o = some r ∧ ∃ init, Recalled (w.mem b).ts (w.mem b).xs (t -. dv) init r ∧
        ((∃ t0 rest, (w.mem b).ts = t0 :: rest ∧ ((t -. dv) <=. t0) = true) → w'.shown i = some init) := by
  unfold delayAct at h
  obtain ⟨m, w1, h1, h2⟩ := ok_bind h
  cases h1
  cases hts : (w.mem b).ts with
  | nil =>
    rw [if_pos rfl]
    rw [hts] at h2
    obtain ⟨v, w2, h3, h4⟩ := ok_bind h2
    obtain ⟨rfl, e⟩ := getv_shown h3
    obtain ⟨g1, g2⟩ := setv_shown h4
    exact ⟨v, g2.shown e, g1⟩
  | cons t0 rest =>
    rw [if_neg (by simp)]
    rw [hts] at h2
    dsimp only at h2
    obtain ⟨dv, w2, h3, h4⟩ := ok_bind h2
    obtain ⟨rfl, e⟩ := getScalar_shown h3
    by_cases hq : ((t -. dv) <=. t0) = true
    · rw [if_pos hq] at h4
      obtain ⟨v, w3, h5, h6⟩ := ok_bind h4
      obtain ⟨rfl, e2⟩ := getv_shown h5
      obtain ⟨g1, g2⟩ := setv_shown h6
      exact ⟨dv, v, g2.shown e, g1, v, .before rfl hq, fun _ => g2.shown e2⟩
    · rw [if_neg hq] at h4
      have hq' : ((t -. dv) <=. t0) = false := by simpa using hq
      have hno : ∀ {init : Val K}, (∃ t0' rest', t0 :: rest = t0' :: rest' ∧ ((t -. dv) <=. t0') = true) → w'.shown i = some init := by
        rintro init ⟨t0', rest', e1, e2⟩
        cases e1
        exact (hq e2).elim
      by_cases hl : (rest.getLastD t0 <=. (t -. dv)) = true
      · rw [if_pos hl] at h4
        cases hx : (w2.mem b).xs.getLast? with
        | none => rw [hx] at h4; cases h4
        | some v =>
          rw [hx] at h4
          obtain ⟨g1, g2⟩ := setv_shown h4
          refine ⟨dv, v, g2.shown e, g1, v, .after rfl hq' ?_ hl hx, hno⟩
          simp [List.getLast?_cons, List.getLastD_eq_getLast?]
      · rw [if_neg hl] at h4
        by_cases hk : countBefore (t -. dv) (t0 :: rest) = 0
        · rw [if_pos hk] at h4; cases h4
        · rw [if_neg hk] at h4
          obtain ⟨xk, w3, h5, h6⟩ := ok_bind h4
          obtain ⟨x1, rfl⟩ := vecAt_ok h5
          obtain ⟨xk1, w4, h7, h8⟩ := ok_bind h6
          obtain ⟨x2, rfl⟩ := vecAt_ok h7
          obtain ⟨tk1, w5, h9, h10⟩ := ok_bind h8
          obtain ⟨x3, rfl⟩ := vecAt_ok h9
          obtain ⟨tk, w6, h11, h12⟩ := ok_bind h10
          obtain ⟨x4, rfl⟩ := vecAt_ok h11
          obtain ⟨v, w7, h13, h14⟩ := ok_bind h12
          obtain ⟨x5, rfl⟩ := liftE_inv h13
          obtain ⟨g1, g2⟩ := setv_shown h14
          obtain ⟨c1, c2⟩ := countBefore_spec (t -. dv) (t0 :: rest)
          obtain ⟨k, ek⟩ : ∃ k, countBefore (t -. dv) (t0 :: rest) = k + 1 := ⟨countBefore (t -. dv) (t0 :: rest) - 1, by omega⟩
          rw [ek] at x1 x2 x3 x4 c1 c2
          simp only [Nat.add_sub_cancel] at x2 x3
          exact ⟨dv, v, g2.shown e, g1, v, 
            .between rfl hq' (tn := rest.getLastD t0) (by simp [List.getLast?_cons, List.getLastD_eq_getLast?]) (by simpa using hl) (fun j s hj => c1 j s (by omega)) x3 x4 (c2 _ x4) x2 x1 (both_of_lift2 x5), hno⟩

theorem deriv_solved {b : BlkId} {x o : SigId} {w w' : World K} (h : derivAct true b t x o w = .ok () w') :
    if (w.mem b).firstStep = true then w'.shown o = some (w.mem b).value
      else ∃ t0, (w.mem b).t = some t0 ∧
        if (t0 ==. t) = true then w'.shown o = some (w.mem b).value
        else ∃ v v0 r, w'.shown x = some v ∧ (w.mem b).x = some v0 ∧ Both (fun a b => (a -. b) /. (t -. t0)) v v0 r ∧ w'.shown o = some r := by
  unfold derivAct at h
  obtain ⟨m, w1, h1, h2⟩ := ok_bind h
  cases h1
  by_cases hf : (w.mem b).firstStep = true
  · rw [if_pos hf] at h2 ⊢
    obtain ⟨_, w2, h3, h4⟩ := ok_bind h2
    obtain ⟨v, w3, h5, h6⟩ := ok_bind h4
    obtain ⟨_, w4, h7, h8⟩ := ok_bind h6
    exact (setv_shown h8).1
  · rw [if_neg hf] at h2 ⊢
    cases ht : (w.mem b).t with
    | none => rw [ht] at h2; cases h2
    | some t0 =>
      rw [ht] at h2
      dsimp only at h2
      refine ⟨t0, rfl, ?_⟩
      by_cases he : (t0 ==. t) = true
      · rw [if_pos he] at h2 ⊢
        exact (setv_shown h2).1
      · rw [if_neg he] at h2 ⊢
        obtain ⟨v, w3, h5, h6⟩ := ok_bind h2
        obtain ⟨rfl, e⟩ := getv_shown h5
        cases hx : (w3.mem b).x with
        | none => rw [hx] at h6; cases h6
        | some v0 =>
          rw [hx] at h6
          dsimp only at h6
          obtain ⟨r, w4, h7, h8⟩ := ok_bind h6
          obtain ⟨x5, rfl⟩ := liftE_inv h7
          obtain ⟨g1, g2⟩ := setv_shown h8
          exact ⟨v, v0, r, g2.shown e, rfl, both_of_lift2 x5, g1⟩

theorem throwOpt_ok {σ : Type} {o : Option Err} {u : Unit} {s s' : σ} (h : (throwOpt o : EStateM Err σ Unit) s = .ok u s') : o = none ∧ s' = s := by
  cases o with
  | none => cases h; exact ⟨rfl, rfl⟩
  | some e => cases h

/-- When an activation function returns, the equation of the block holds. -/
theorem act_solved {l : Leaf K} {w w' : World K} (h : l.act true t w = .ok () w') : l.Solved t (w.mem l.id) w'.shown := by
  rw [act_apply] at h
  have hsh : ∀ s, ({ w with log := .act l.id t :: w.log } : World K).shown s = w.shown s := fun _ => rfl
  unfold Leaf.actBody at h
  unfold Leaf.Solved
  cases hk : l.kind with
  | const v o => rw [hk] at h; exact (setv_shown h).1
  | source f o =>
    rw [hk] at h
    obtain ⟨v, w1, h1, h2⟩ := ok_bind h
    exact ⟨v, (liftE_inv h1).1, (setv_shown h2).1⟩
  | sources f os =>
    rw [hk] at h
    obtain ⟨_, w1, h1, h2⟩ := ok_bind h
    obtain ⟨e, rfl⟩ := throwOpt_ok h2
    exact ⟨e, (setAll_given h1).1⟩
  | gain k x o =>
    rw [hk] at h
    obtain ⟨v, w1, h1, h2⟩ := ok_bind h
    obtain ⟨rfl, e⟩ := getv_shown h1
    obtain ⟨r, w2, h3, h4⟩ := ok_bind h2
    obtain ⟨e2, rfl⟩ := liftE_inv h3
    obtain ⟨g1, g2⟩ := setv_shown h4
    exact ⟨v, r, g2.shown e, scaled_of_gain e2, g1⟩
  | add i ins o =>
    rw [hk] at h
    obtain ⟨r, w1, h1, h2⟩ := ok_bind h
    obtain ⟨rfl, e⟩ := foldIns_folded h1
    obtain ⟨g1, g2⟩ := setv_shown h2
    exact ⟨r, e.mono g2, g1⟩
  | multiply i ins o =>
    rw [hk] at h
    obtain ⟨r, w1, h1, h2⟩ := ok_bind h
    obtain ⟨rfl, e⟩ := foldIns_folded h1
    obtain ⟨g1, g2⟩ := setv_shown h2
    exact ⟨r, e.mono g2, g1⟩
  | subtract x1 x2 o =>
    rw [hk] at h
    obtain ⟨a, w1, h1, h2⟩ := ok_bind h
    obtain ⟨rfl, e⟩ := getv_shown h1
    obtain ⟨b, w2, h3, h4⟩ := ok_bind h2
    obtain ⟨rfl, e2⟩ := getv_shown h3
    obtain ⟨r, w3, h5, h6⟩ := ok_bind h4
    obtain ⟨e3, rfl⟩ := liftE_inv h5
    obtain ⟨g1, g2⟩ := setv_shown h6
    exact ⟨a, b, r, g2.shown e, g2.shown e2, both_of_lift2 e3, g1⟩
  | divide x1 x2 o =>
    rw [hk] at h
    obtain ⟨a, w1, h1, h2⟩ := ok_bind h
    obtain ⟨rfl, e⟩ := getv_shown h1
    obtain ⟨b, w2, h3, h4⟩ := ok_bind h2
    obtain ⟨rfl, e2⟩ := getv_shown h3
    obtain ⟨r, w3, h5, h6⟩ := ok_bind h4
    obtain ⟨e3, rfl⟩ := liftE_inv h5
    obtain ⟨g1, g2⟩ := setv_shown h6
    exact ⟨a, b, r, g2.shown e, g2.shown e2, both_of_lift2 e3, g1⟩
  | pipe x o =>
    rw [hk] at h
    obtain ⟨v, w1, h1, h2⟩ := ok_bind h
    obtain ⟨rfl, e⟩ := getv_shown h1
    obtain ⟨g1, g2⟩ := setv_shown h2
    exact ⟨v, g2.shown e, g1⟩
  | memory x o =>
    rw [hk] at h
    obtain ⟨m, w1, h1, h2⟩ := ok_bind h
    cases h1
    exact (setv_shown h2).1
  | delay ls x d i o =>
    rw [hk] at h
    have := delay_solved h
    exact this
  | derivative x o =>
    rw [hk] at h
    have := deriv_solved h
    exact this
  | integrator x o => trivial
  | trigInt x tr o => trivial
  | siso f x o =>
    rw [hk] at h
    obtain ⟨v, w1, h1, h2⟩ := ok_bind h
    obtain ⟨rfl, e⟩ := getv_shown h1
    obtain ⟨r, w2, h3, h4⟩ := ok_bind h2
    obtain ⟨e2, rfl⟩ := liftE_inv h3
    obtain ⟨g1, g2⟩ := setv_shown h4
    exact ⟨v, r, g2.shown e, e2, g1⟩
  | so f rs o =>
    rw [hk] at h
    obtain ⟨vs, w1, h1, h2⟩ := ok_bind h
    obtain ⟨rfl, e⟩ := getAll_shows h1
    obtain ⟨r, w2, h3, h4⟩ := ok_bind h2
    obtain ⟨e2, rfl⟩ := liftE_inv h3
    obtain ⟨g1, g2⟩ := setv_shown h4
    exact ⟨vs, r, e.mono g2, e2, g1⟩
  | func f rs os =>
    rw [hk] at h
    obtain ⟨vs, w1, h1, h2⟩ := ok_bind h
    obtain ⟨rfl, e⟩ := getAll_shows h1
    obtain ⟨_, w2, h3, h4⟩ := ok_bind h2
    obtain ⟨e2, rfl⟩ := throwOpt_ok h4
    obtain ⟨g1, g2⟩ := setAll_given h3
    exact ⟨vs, e.mono g2, e2, g1⟩
  | builder => trivial
  | custom c =>
    rw [hk] at h
    obtain ⟨m, w0, h0, h⟩ := ok_bind h
    cases h0
    obtain ⟨vs, w1, h1, h2⟩ := ok_bind h
    obtain ⟨rfl, e⟩ := getAll_shows h1
    obtain ⟨r, w2, h3, h4⟩ := ok_bind h2
    obtain ⟨e2, rfl⟩ := liftE_inv h3
    obtain ⟨_, w3, h5, h6⟩ := ok_bind h4
    cases h5
    obtain ⟨g1, g2⟩ := setAll_given h6
    refine ⟨vs, r, Shows.mono g2 ?_, e2, g1⟩
    exact e

/-- After some activations the equations of all the blocks hold. -/
theorem acts_solved {w w' : World K} {ls : List (Leaf K)} (h : Acts true t w ls w') (hn : (ls.map Leaf.id).Nodup) {l : Leaf K} (hl : l ∈ ls) :
    l.Solved t (w.mem l.id) w'.shown := by
  obtain ⟨l1, l2, wa, wb, e, g1, g2, g3⟩ := h.split hl
  have hn1 : l.id ∉ l1.map Leaf.id := by
    rw [e, List.map_append, List.map_cons, List.nodup_append] at hn
    exact fun hc => hn.2.2 _ hc _ (List.mem_cons_self ..) rfl
  rw [← g1.mem hn1]
  exact Solved.mono (acts_kept g3) (act_solved g2)

/-! ### The equations determine the values -/

theorem lift2_of_both {f : K → K → K} {a b r : Val K} (h : Both f a b r) : Val.lift2 f a b = .ok r := by
  cases h with
  | scalar a b => rfl
  | array a b =>
    unfold Val.lift2
    dsimp only
    rw [if_pos (by simp)]
    congr 2
    exact List.ext_getElem (by simp) (fun i h1 h2 => by simp)

theorem Both.det {f : K → K → K} {a b r r' : Val K} (h : Both f a b r) (h' : Both f a b r') : r = r' := by
  have := (lift2_of_both h).symm.trans (lift2_of_both h')
  cases this; rfl

def gainOf : Val K → Val K → Val K
  | .scalar k, .scalar a => .scalar (k *. a)
  | .int k, .int a => .int (k * a)
  | .scalar k, .array xs => .array (xs.map (fun x => k *. x))
  | _, v => v

theorem gain_of_scaled {k a r : Val K} (h : Scaled k a r) : r = gainOf k a := by
  cases h with
  | scalar k a => rfl
  | int k a => rfl
  | array k a =>
    unfold gainOf
    congr 1
    exact List.ext_getElem (by simp) (fun i h1 h2 => by simp)

theorem Scaled.det {k a r r' : Val K} (h : Scaled k a r) (h' : Scaled k a r') : r = r' :=
  (gain_of_scaled h).trans (gain_of_scaled h').symm

theorem Folded.det {v1 v2 : SigId → Option (Val K)} {f : K → K → K} {acc r r' : Val K} {ss : List SigId} (h : Folded v1 f acc ss r)
    (h' : Folded v2 f acc ss r') (hv : ∀ s ∈ ss, v1 s = v2 s) : r = r' := by
  induction h with
  | nil acc => cases h'; rfl
  | @cons acc v acc' r s ss h1 h2 _ ih =>
    cases h' with
    | @cons _ v' acc'' _ _ _ g1 g2 g3 =>
      have : v = v' := by
        have := hv s (List.mem_cons_self ..)
        rw [h1, g1] at this
        cases this; rfl
      subst this
      have := h2.det g2
      subst this
      exact ih g3 (fun s hs => hv s (List.mem_cons_of_mem _ hs))

theorem Shows.det {v1 v2 : SigId → Option (Val K)} {ss : List SigId} {vs vs' : List (Val K)} (h : Shows v1 ss vs) (h' : Shows v2 ss vs')
    (hv : ∀ s ∈ ss, v1 s = v2 s) : vs = vs' := by
  unfold Shows at h h'
  induction h generalizing vs' with
  | nil => cases h'; rfl
  | @cons s v ss vs h1 _ ih =>
    cases h' with
    | cons g1 g2 =>
      have := hv s (List.mem_cons_self ..)
      rw [h1, g1] at this
      cases this
      rw [ih g2 (fun s hs => hv s (List.mem_cons_of_mem _ hs))]

theorem Given.det {v1 v2 : SigId → Option (Val K)} {ss : List SigId} {vs : List (Option (Val K))} (h : Given v1 ss vs) (h' : Given v2 ss vs)
    (hl : ss.length ≤ vs.length) (hn : none ∉ vs) {s : SigId} (hs : s ∈ ss) : v1 s = v2 s := by
  obtain ⟨i, hi, e⟩ := List.mem_iff_getElem.1 hs
  have hi' : i < vs.length := by omega
  cases hv : vs[i] with
  | none => exact (hn (hv ▸ List.getElem_mem hi')).elim
  | some v =>
    have e1 : ss[i]? = some s := by rw [List.getElem?_eq_getElem hi, e]
    have e2 : vs[i]? = some (some v) := by rw [List.getElem?_eq_getElem hi', hv]
    rw [h i s v e1 e2, h' i s v e1 e2]

theorem Recalled.det {ts : List K} {xs : List (Val K)} {q : K} {i1 i2 r1 r2 : Val K} (h : Recalled ts xs q i1 r1) (h' : Recalled ts xs q i2 r2)
    (hi : (∃ t0 rest, ts = t0 :: rest ∧ (q <=. t0) = true) → i1 = i2) : r1 = r2 := by
  cases h with
  | before a1 a2 =>
    cases h' with
    | before b1 b2 => exact hi ⟨_, _, a1, a2⟩
    | after b1 b2 => rw [a1] at b1; cases b1; rw [a2] at b2; cases b2
    | between b1 b2 => rw [a1] at b1; cases b1; rw [a2] at b2; cases b2
  | after a1 a2 a3 a4 a5 =>
    cases h' with
    | before b1 b2 => rw [a1] at b1; cases b1; rw [a2] at b2; cases b2
    | after b1 b2 b3 b4 b5 => rw [a5] at b5; cases b5; rfl
    | between b1 b2 b3 b4 => rw [a3] at b3; cases b3; rw [a4] at b4; cases b4
  | @between t0 ta tb tn rest i a b _ a1 a2 a3 a4 a5 a6 a7 a8 a9 a10 a11 =>
    cases h' with
    | before b1 b2 => rw [a1] at b1; cases b1; rw [a2] at b2; cases b2
    | after b1 b2 b3 b4 b5 => rw [a3] at b3; cases b3; rw [a4] at b4; cases b4
    | @between t0' ta' tb' tn' rest' i' a' b' _ b1 b2 b3 b4 b5 b6 b7 b8 b9 b10 b11 =>
      have e : i = i' := by
        rcases Nat.lt_trichotomy i i' with hlt | he | hlt
        · have := b5 (i + 1) tb hlt a7
          rw [a8] at this; cases this
        · exact he
        · have := a5 (i' + 1) tb' hlt b7
          rw [b8] at this; cases this
      subst e
      rw [a6] at b6; cases b6
      rw [a7] at b7; cases b7
      rw [a9] at b9; cases b9
      rw [a10] at b10; cases b10
      exact a11.det b11

/-- The equation of a block determines its outputs. -/
theorem Solved.det {l : Leaf K} (hc : l.Complete) {mem : Mem K} {v1 v2 : SigId → Option (Val K)} (h : l.Solved t mem v1) (h' : l.Solved t mem v2)
    (hv : ∀ s ∈ l.reads, v1 s = v2 s) {s : SigId} (hs : s ∈ l.outs) : v1 s = v2 s := by
  unfold Leaf.Solved at h h'
  unfold Leaf.Complete at hc
  unfold Leaf.reads at hv
  unfold Leaf.outs at hs
  cases hk : l.kind with
  | const v o =>
    rw [hk] at h h' hs
    cases List.mem_singleton.1 hs
    exact h.trans h'.symm
  | source f o =>
    rw [hk] at h h' hs
    cases List.mem_singleton.1 hs
    obtain ⟨v, a1, a2⟩ := h
    obtain ⟨v', b1, b2⟩ := h'
    rw [a1] at b1; cases b1
    exact a2.trans b2.symm
  | sources f os =>
    rw [hk] at h h' hs hc
    exact h.2.det h'.2 (hc t).1 (hc t).2 hs
  | gain k x o =>
    rw [hk] at h h' hs hv
    cases List.mem_singleton.1 hs
    obtain ⟨a, r, a1, a2, a3⟩ := h
    obtain ⟨a', r', b1, b2, b3⟩ := h'
    have e := hv x (List.mem_singleton.2 rfl)
    rw [a1, b1] at e; cases e
    rw [a3, b3, a2.det b2]
  | add i ins o =>
    rw [hk] at h h' hs hv
    cases List.mem_singleton.1 hs
    obtain ⟨r, a1, a2⟩ := h
    obtain ⟨r', b1, b2⟩ := h'
    rw [a2, b2, a1.det b1 hv]
  | multiply i ins o =>
    rw [hk] at h h' hs hv
    cases List.mem_singleton.1 hs
    obtain ⟨r, a1, a2⟩ := h
    obtain ⟨r', b1, b2⟩ := h'
    rw [a2, b2, a1.det b1 hv]
  | subtract x1 x2 o =>
    rw [hk] at h h' hs hv
    cases List.mem_singleton.1 hs
    obtain ⟨a, b, r, a1, a2, a3, a4⟩ := h
    obtain ⟨a', b', r', b1, b2, b3, b4⟩ := h'
    have e := hv x1 (by simp [Kind.reads])
    rw [a1, b1] at e; cases e
    have e := hv x2 (by simp [Kind.reads])
    rw [a2, b2] at e; cases e
    rw [a4, b4, a3.det b3]
  | divide x1 x2 o =>
    rw [hk] at h h' hs hv
    cases List.mem_singleton.1 hs
    obtain ⟨a, b, r, a1, a2, a3, a4⟩ := h
    obtain ⟨a', b', r', b1, b2, b3, b4⟩ := h'
    have e := hv x1 (by simp [Kind.reads])
    rw [a1, b1] at e; cases e
    have e := hv x2 (by simp [Kind.reads])
    rw [a2, b2] at e; cases e
    rw [a4, b4, a3.det b3]
  | pipe x o =>
    rw [hk] at h h' hs hv
    cases List.mem_singleton.1 hs
    obtain ⟨a, a1, a2⟩ := h
    obtain ⟨a', b1, b2⟩ := h'
    have e := hv x (List.mem_singleton.2 rfl)
    rw [a1, b1] at e; cases e
    rw [a2, b2]
  | memory x o =>
    rw [hk] at h h' hs
    cases List.mem_singleton.1 hs
    exact h.trans h'.symm
  | delay ls x d i o =>
    rw [hk] at h h' hs hv
    cases List.mem_singleton.1 hs
    have ed := hv d (by simp [Kind.reads])
    have ei := hv i (by simp [Kind.reads])
    dsimp only at h h'
    by_cases ht : mem.ts = []
    · rw [if_pos ht] at h h'
      obtain ⟨a, a1, a2⟩ := h
      obtain ⟨a', b1, b2⟩ := h'
      rw [a1, b1] at ei; cases ei
      rw [a2, b2]
    · rw [if_neg ht] at h h'
      obtain ⟨dv, r, a1, a2, init, a3, a4⟩ := h
      obtain ⟨dv', r', b1, b2, init', b3, b4⟩ := h'
      rw [a1, b1] at ed; cases ed
      rw [a2, b2, a3.det b3 (fun hh => ?_)]
      have e := ei
      rw [a4 hh, b4 hh] at e
      cases e; rfl
  | derivative x o =>
    rw [hk] at h h' hs hv
    cases List.mem_singleton.1 hs
    dsimp only at h h'
    by_cases hf : mem.firstStep = true
    · rw [if_pos hf] at h h'
      exact h.trans h'.symm
    · rw [if_neg hf] at h h'
      obtain ⟨t0, a1, a2⟩ := h
      obtain ⟨t0', b1, b2⟩ := h'
      rw [a1] at b1; cases b1
      by_cases ht : (t0 ==. t) = true
      · rw [if_pos ht] at a2 b2
        exact a2.trans b2.symm
      · rw [if_neg ht] at a2 b2
        obtain ⟨v, v0, r, c1, c2, c3, c4⟩ := a2
        obtain ⟨v', v0', r', d1, d2, d3, d4⟩ := b2
        have e := hv x (List.mem_singleton.2 rfl)
        rw [c1, d1] at e; cases e
        rw [c2] at d2; cases d2
        rw [c4, d4, c3.det d3]
  | integrator x o => rw [hk] at hs; cases hs
  | trigInt x tr o => rw [hk] at hs; cases hs
  | siso f x o =>
    rw [hk] at h h' hs hv
    cases List.mem_singleton.1 hs
    obtain ⟨a, r, a1, a2, a3⟩ := h
    obtain ⟨a', r', b1, b2, b3⟩ := h'
    have e := hv x (List.mem_singleton.2 rfl)
    rw [a1, b1] at e; cases e
    rw [a2] at b2; cases b2
    rw [a3, b3]
  | so f rs o =>
    rw [hk] at h h' hs hv
    cases List.mem_singleton.1 hs
    obtain ⟨vs, r, a1, a2, a3⟩ := h
    obtain ⟨vs', r', b1, b2, b3⟩ := h'
    cases a1.det b1 hv
    rw [a2] at b2; cases b2
    rw [a3, b3]
  | func f rs os =>
    rw [hk] at h h' hs hv hc
    obtain ⟨vs, a1, a2, a3⟩ := h
    obtain ⟨vs', b1, b2, b3⟩ := h'
    cases a1.det b1 hv
    exact a3.det b3 (hc t vs a2).1 (hc t vs a2).2 hs
  | builder => rw [hk] at hs; cases hs
  | custom c =>
    rw [hk] at h h' hs hv hc
    obtain ⟨vs, r, a1, a2, a3⟩ := h
    obtain ⟨vs', r', b1, b2, b3⟩ := h'
    cases a1.det b1 hv
    rw [a2] at b2; cases b2
    exact a3.det b3 (hc t _ vs r a2).1 (hc t _ vs r a2).2 hs

theorem Solved.algebraic {l : Leaf K} (ha : l.Algebraic) {mem mem' : Mem K} {val : SigId → Option (Val K)} (h : l.Solved t mem val) :
    l.Solved t mem' val := by
  unfold Leaf.Solved at h ⊢
  unfold Leaf.Algebraic at ha
  cases hk : l.kind <;> rw [hk] at h ha <;> first | exact ha.elim | exact h

end Pooya
