import Verif.Proof.Delay
import Verif.Model.Field
import Mathlib.Tactic.Ring
import Mathlib.Tactic.FieldSimp
import Mathlib.Tactic.Linarith
import Mathlib.Data.List.TakeWhile

/-! # C38 — Delay interpolates its recorded input

`q = t - delay` is the time the block looks up in its record: times `ts` and values `xs`. -/

namespace Pooya.C38

set_option linter.unusedSectionVars false

/-! ## In any arithmetic -/

section
variable {K : Type} [Arith K] {dbg : Bool} {l : Leaf K} {t : K} {w : World K} {o : SigId}
variable {ls d : K} {sx sd si : SigId} {v0 : Val K}

/-- Before anything was recorded the output is the initial value; the delay is not even read. -/
theorem C38_empty (hk : l.kind = .delay ls sx sd si o) (hm : (w.mem l.id).ts = []) (hi : Holds dbg w si v0) (ho : Takes dbg w o v0) :
    Outputs dbg l t w o v0 :=
  outputs_eq (fun lg => by
    simp only [Leaf.actBody, hk, delayAct, bind_apply, getMem, hm]
    rw [getv_log hi]) ho

variable {ts : List K} {xs : List (Val K)} {tf : K} {rest : List K}

/-- `t - delay` not after the first record: the initial value. -/
theorem C38_initial (hk : l.kind = .delay ls sx sd si o) (hm : (w.mem l.id).ts = tf :: rest) (hd : Holds dbg w sd (.scalar d))
    (hi : Holds dbg w si v0) (ho : Takes dbg w o v0) (hq : ((t -. d) <=. tf) = true) : Outputs dbg l t w o v0 :=
  outputs_eq (fun lg => by
    simp only [Leaf.actBody, hk, delayAct, bind_apply, getMem, hm, getScalar]
    rw [getv_log hd]
    simp only [pure_apply, hq, if_true]
    rw [bind_apply, getv_log hi]) ho

/-- `t - delay` after the first but not before the last record: the last value. -/
theorem C38_last {v : Val K} (hk : l.kind = .delay ls sx sd si o) (hm : (w.mem l.id).ts = tf :: rest)
    (hx : (w.mem l.id).xs.getLast? = some v) (hd : Holds dbg w sd (.scalar d)) (ho : Takes dbg w o v)
    (hq : ((t -. d) <=. tf) = false) (hl : (((tf :: rest).getLast (by simp)) <=. (t -. d)) = true) : Outputs dbg l t w o v :=
  outputs_eq (fun lg => by
    have e : rest.getLastD tf = (tf :: rest).getLast (by simp) := by
      cases rest with
      | nil => rfl
      | cons a r => simp [List.getLastD]
    simp only [Leaf.actBody, hk, delayAct, bind_apply, getMem, hm, getScalar]
    rw [getv_log hd]
    simp only [pure_apply, hq, Bool.false_eq_true, if_false, e, hl, if_true, hx]) ho

theorem countBefore_eq {q : K} {ts : List K} {i : Nat} (hi : i < ts.length) (hb : ∀ j (hj : j < i), (q <=. ts[j]) = false)
    (ha : (q <=. ts[i]) = true) : countBefore q ts = i := by
  unfold countBefore
  induction ts generalizing i with
  | nil => simp at hi
  | cons a as ih =>
    cases i with
    | zero => simp only [List.getElem_cons_zero] at ha; simp [ha]
    | succ i =>
      have h0 : (q <=. a) = false := hb 0 (by omega)
      simp only [List.takeWhile_cons, h0, Bool.not_false, if_true, List.length_cons]
      rw [ih (i := i) (by simpa using hi) (fun j hj => hb (j + 1) (by omega)) (by simpa using ha)]

/-- Otherwise: with `i + 1` the first record not before `t - delay`, the formula applied to the records `i` and `i + 1`. -/
theorem C38_between_any (hk : l.kind = .delay ls sx sd si o) (hm : (w.mem l.id).ts = tf :: rest) (hd : Holds dbg w sd (.scalar d))
    (hq : ((t -. d) <=. tf) = false) (hl : (((tf :: rest).getLast (by simp)) <=. (t -. d)) = false)
    {i : Nat} {t0 t1 : K} {a b v : Val K} (h0 : (tf :: rest)[i]? = some t0) (h1 : (tf :: rest)[i + 1]? = some t1)
    (hb : ∀ j s, j ≤ i → (tf :: rest)[j]? = some s → ((t -. d) <=. s) = false) (ha : ((t -. d) <=. t1) = true)
    (hxa : (w.mem l.id).xs[i]? = some a) (hxb : (w.mem l.id).xs[i + 1]? = some b)
    (hv : Val.lift2 (interp1 (t -. d) t0 t1) b a = .ok v) (ho : Takes dbg w o v) : Outputs dbg l t w o v :=
  outputs_eq (fun lg => by
    have e : rest.getLastD tf = (tf :: rest).getLast (by simp) := by
      cases rest with
      | nil => rfl
      | cons a r => simp [List.getLastD]
    obtain ⟨hlt, e1⟩ := List.getElem?_eq_some_iff.1 h1
    have hc : countBefore (t -. d) (tf :: rest) = i + 1 := countBefore_eq hlt
      (fun j hj => hb j _ (by omega) (List.getElem?_eq_getElem (by omega))) (by rw [e1]; exact ha)
    simp only [Leaf.actBody, hk, delayAct, bind_apply, getMem, hm, getScalar]
    rw [getv_log hd]
    simp only [pure_apply, hq, Bool.false_eq_true, if_false, e, hl, hc, Nat.add_eq_zero_iff, one_ne_zero, and_false, bind_apply, vecAt,
      hxb, hxa, h0, h1, Nat.add_sub_cancel, hv, liftE_ok]) ho

end

/-! ## Exact arithmetic -/

section
variable {K : Type} [Field K] [LinearOrder K] [IsStrictOrderedRing K]
attribute [local instance] Arith.exact

/-- A record: strictly increasing times and as many values. -/
structure Record (ts : List K) (xs : List (Val K)) : Prop where
  incr : ts.Pairwise (· < ·)
  len : xs.length = ts.length

variable {dbg : Bool} {l : Leaf K} {t : K} {w : World K} {o : SigId} {ls d : K} {sx sd si : SigId} {v0 : Val K}

/-- Strictly between the first and the last record there are neighbouring records around `q`, exactly one pair. -/
theorem C38_neighbours {ts : List K} (hs : ts.Pairwise (· < ·)) {q f e : K} (hf : ts.head? = some f) (he : ts.getLast? = some e)
    (hq : f < q) (hqe : q < e) :
    ∃ i t0 t1, ts[i]? = some t0 ∧ ts[i + 1]? = some t1 ∧ t0 < q ∧ q ≤ t1 ∧
      ∀ j s0 s1, ts[j]? = some s0 → ts[j + 1]? = some s1 → s0 < q → q ≤ s1 → j = i := by
  induction ts generalizing f with
  | nil => simp at hf
  | cons a r ih =>
    simp only [List.head?_cons, Option.some.injEq] at hf
    subst hf
    cases r with
    | nil => simp at he; subst he; exact (lt_asymm hq hqe).elim
    | cons b r =>
      rw [List.pairwise_cons] at hs
      have he' : (b :: r).getLast? = some e := by simpa using he
      by_cases hb : b < q
      · obtain ⟨i, t0, t1, h0, h1, h2, h3, h4⟩ := ih hs.2 rfl he' hb
        refine ⟨i + 1, t0, t1, h0, h1, h2, h3, fun j s0 s1 g0 g1 g2 g3 => ?_⟩
        cases j with
        | zero =>
          simp only [zero_add, List.getElem?_cons_succ, List.getElem?_cons_zero, Option.some.injEq] at g1
          subst g1
          exact (not_le.2 hb g3).elim
        | succ j => rw [h4 j s0 s1 g0 g1 g2 g3]
      · refine ⟨0, a, b, rfl, rfl, hq, not_lt.1 hb, fun j s0 s1 g0 g1 g2 g3 => ?_⟩
        cases j with
        | zero => rfl
        | succ j =>
          exfalso
          simp only [List.getElem?_cons_succ] at g0
          cases j with
          | zero => simp at g0; subst g0; exact hb g2
          | succ j =>
            have : b < s0 := (List.pairwise_cons.1 hs.2).1 s0 (List.mem_of_getElem? (by simpa using g0))
            exact hb (lt_trans this g2)

theorem before_all {ts : List K} (hs : ts.Pairwise (· < ·)) {i : Nat} {t0 q : K} (h0 : ts[i]? = some t0) (hq : t0 < q) :
    ∀ j s, j ≤ i → ts[j]? = some s → s < q := by
  intro j s hj h
  rcases Nat.lt_or_eq_of_le hj with h1 | rfl
  · obtain ⟨hl, e⟩ := List.getElem?_eq_some_iff.1 h
    obtain ⟨hl', e'⟩ := List.getElem?_eq_some_iff.1 h0
    have := List.pairwise_iff_getElem.1 hs j i hl hl' h1
    rw [e, e'] at this
    exact lt_trans this hq
  · rw [h] at h0; cases h0; exact hq

/-- Between the first and the last record, `Delay` (scalars): the point at `t - delay` of the straight line through the
neighbouring records. -/
theorem C38_between (hk : l.kind = .delay ls sx sd si o) {ts ys : List K} (hm : (w.mem l.id).ts = ts)
    (hx : (w.mem l.id).xs = ys.map .scalar) (hr : Record ts (ys.map .scalar)) (hd : Holds dbg w sd (.scalar d))
    (ho : ∀ a, Takes dbg w o (.scalar a)) {f e : K} (hf : ts.head? = some f) (he : ts.getLast? = some e)
    (hqf : f < t - d) (hqe : t - d < e) {i : Nat} {t0 t1 y0 y1 : K} (h0 : ts[i]? = some t0) (h1 : ts[i + 1]? = some t1)
    (g0 : ys[i]? = some y0) (g1 : ys[i + 1]? = some y1) (ht0 : t0 < t - d) (ht1 : t - d ≤ t1) :
    Outputs dbg l t w o (.scalar (y0 + (y1 - y0) / (t1 - t0) * (t - d - t0))) := by
  cases ts with
  | nil => simp at hf
  | cons tf rest =>
    simp only [List.head?_cons, Option.some.injEq] at hf
    subst hf
    have hlast : (tf :: rest).getLast (by simp) = e := by
      rw [List.getLast?_eq_getLast_of_ne_nil (by simp)] at he; simpa using he
    refine C38_between_any hk hm hd (decide_eq_false (not_le.2 hqf)) (by rw [hlast]; exact decide_eq_false (not_le.2 hqe)) h0 h1
      (fun j s hj hs => decide_eq_false (not_le.2 (before_all hr.incr h0 ht0 j s hj hs))) (decide_eq_true ht1)
      (by rw [hx, List.getElem?_map, g0]; rfl) (by rw [hx, List.getElem?_map, g1]; rfl) ?_ (ho _)
    simp only [Val.lift2, interp1, exact_add, exact_sub, exact_mul, exact_div]
    congr 2
    ring

/-- `DelayA`: the same for every coefficient. -/
theorem C38_between_array (hk : l.kind = .delay ls sx sd si o) {n : Nat} {ts : List K} {ys : List (Fin n → K)} (hm : (w.mem l.id).ts = ts)
    (hx : (w.mem l.id).xs = ys.map arrayOf) (hr : Record ts (ys.map arrayOf)) (hd : Holds dbg w sd (.scalar d))
    (ho : ∀ a : Fin n → K, Takes dbg w o (arrayOf a)) {f e : K} (hf : ts.head? = some f) (he : ts.getLast? = some e)
    (hqf : f < t - d) (hqe : t - d < e) {i : Nat} {t0 t1 : K} {y0 y1 : Fin n → K} (h0 : ts[i]? = some t0) (h1 : ts[i + 1]? = some t1)
    (g0 : ys[i]? = some y0) (g1 : ys[i + 1]? = some y1) (ht0 : t0 < t - d) (ht1 : t - d ≤ t1) :
    Outputs dbg l t w o (arrayOf (fun c => y0 c + (y1 c - y0 c) / (t1 - t0) * (t - d - t0))) := by
  cases ts with
  | nil => simp at hf
  | cons tf rest =>
    simp only [List.head?_cons, Option.some.injEq] at hf
    subst hf
    have hlast : (tf :: rest).getLast (by simp) = e := by
      rw [List.getLast?_eq_getLast_of_ne_nil (by simp)] at he; simpa using he
    refine C38_between_any hk hm hd (decide_eq_false (not_le.2 hqf)) (by rw [hlast]; exact decide_eq_false (not_le.2 hqe)) h0 h1
      (fun j s hj hs => decide_eq_false (not_le.2 (before_all hr.incr h0 ht0 j s hj hs))) (decide_eq_true ht1)
      (by rw [hx, List.getElem?_map, g0]; rfl) (by rw [hx, List.getElem?_map, g1]; rfl) ?_ (ho _)
    rw [lift2_ofFn]
    congr 2
    funext c
    simp only [interp1, exact_add, exact_sub, exact_mul, exact_div]
    ring

/-- The interpolated value lies between the neighbouring values. -/
theorem C38_bounded {t0 t1 y0 y1 q : K} (h0 : t0 < q) (h1 : q ≤ t1) :
    min y0 y1 ≤ y0 + (y1 - y0) / (t1 - t0) * (q - t0) ∧ y0 + (y1 - y0) / (t1 - t0) * (q - t0) ≤ max y0 y1 := by
  have hp : 0 < t1 - t0 := by linarith
  have hr0 : 0 ≤ (q - t0) / (t1 - t0) := div_nonneg (by linarith) hp.le
  have hr1 : (q - t0) / (t1 - t0) ≤ 1 := by rw [div_le_one hp]; linarith
  have e : y0 + (y1 - y0) / (t1 - t0) * (q - t0) = y0 + (y1 - y0) * ((q - t0) / (t1 - t0)) := by ring
  rw [e]
  generalize (q - t0) / (t1 - t0) = r at *
  rcases le_total y0 y1 with h | h
  · rw [min_eq_left h, max_eq_right h]
    constructor
    · nlinarith [mul_nonneg (sub_nonneg.2 h) hr0]
    · nlinarith [mul_nonneg (sub_nonneg.2 h) (sub_nonneg.2 hr1)]
  · rw [min_eq_right h, max_eq_left h]
    constructor
    · nlinarith [mul_nonneg (sub_nonneg.2 h) (sub_nonneg.2 hr1)]
    · nlinarith [mul_nonneg (sub_nonneg.2 h) hr0]

/-- If the recorded input is affine in time, the output is exactly the input at `t - delay`. -/
theorem C38_affine (hk : l.kind = .delay ls sx sd si o) {ts : List K} (hs : ts.Pairwise (· < ·)) (a b : K) (hm : (w.mem l.id).ts = ts)
    (hx : (w.mem l.id).xs = ts.map (fun s => .scalar (a * s + b))) (hd : Holds dbg w sd (.scalar d))
    (ho : ∀ a, Takes dbg w o (.scalar a)) {f e : K} (hf : ts.head? = some f) (he : ts.getLast? = some e)
    (hqf : f < t - d) (hqe : t - d ≤ e) : Outputs dbg l t w o (.scalar (a * (t - d) + b)) := by
  rcases lt_or_eq_of_le hqe with hlt | heq
  · obtain ⟨i, t0, t1, h0, h1, h2, h3, _⟩ := C38_neighbours hs hf he hqf hlt
    have := C38_between (ys := ts.map (fun s => a * s + b)) hk hm (by rw [hx, List.map_map]; rfl) ⟨hs, by simp⟩ hd ho hf he hqf hlt h0 h1
      (y0 := a * t0 + b) (y1 := a * t1 + b) (by simp [h0]) (by simp [h1]) h2 h3
    have hne : t1 - t0 ≠ 0 := by have : t0 < t1 := lt_of_lt_of_le h2 h3; exact sub_ne_zero.2 this.ne'
    have e : a * t0 + b + (a * t1 + b - (a * t0 + b)) / (t1 - t0) * (t - d - t0) = a * (t - d) + b := by
      field_simp; ring
    rwa [e] at this
  · cases ts with
    | nil => simp at hf
    | cons tf rest =>
      simp only [List.head?_cons, Option.some.injEq] at hf
      subst hf
      have hlast : (tf :: rest).getLast (by simp) = e := by
        rw [List.getLast?_eq_getLast_of_ne_nil (by simp)] at he; simpa using he
      refine C38_last hk hm ?_ hd (ho _) (decide_eq_false (not_le.2 hqf)) (by rw [hlast]; exact decide_eq_true heq.ge)
      rw [hx, List.getLast?_map, he, heq]
      rfl

end

/-! ## No division by zero -/

section
variable {K : Type} [Field K] [LinearOrder K] [IsStrictOrderedRing K]

/-- With strictly increasing records the activation function never uses a division by zero: its value would not matter. -/
theorem C38_no_zero_division (bad : K) (dbg : Bool) (l : Leaf K) (ls : K) (sx sd si o : SigId) (hk : l.kind = .delay ls sx sd si o)
    (t : K) (w : World K) (hs : (w.mem l.id).ts.Pairwise (· < ·)) :
    @Leaf.act K (exactBad bad) dbg l t w = @Leaf.act K (Arith.exact K) dbg l t w := by
  have key : ∀ q k tk tk1 x y, (w.mem l.id).ts[k]? = some tk → k ≠ 0 → (w.mem l.id).ts[k - 1]? = some tk1 →
      @Val.lift2 K (@interp1 K (exactBad bad) q tk1 tk) x y = @Val.lift2 K (@interp1 K (Arith.exact K) q tk1 tk) x y := by
    intro q k tk tk1 x y h1 h0 h2
    have hne : tk - tk1 ≠ 0 := by
      obtain ⟨g1, e1⟩ := List.getElem?_eq_some_iff.1 h1
      obtain ⟨g2, e2⟩ := List.getElem?_eq_some_iff.1 h2
      have := List.pairwise_iff_getElem.1 hs (k - 1) k g2 g1 (by omega)
      rw [e1, e2] at this
      exact sub_ne_zero.2 this.ne'
    have : @interp1 K (exactBad bad) q tk1 tk = @interp1 K (Arith.exact K) q tk1 tk := by
      funext a b
      show (if tk - tk1 = 0 then bad else _) + b = _
      rw [if_neg hne]; rfl
    rw [this]
  have e : ∀ q k, k ≠ 0 → ∀ w1,
      (do let xk ← vecAt (w.mem l.id).xs k
          let xk1 ← vecAt (w.mem l.id).xs (k - 1)
          let tk1 ← vecAt (w.mem l.id).ts (k - 1)
          let tk ← vecAt (w.mem l.id).ts k
          let v ← liftE (Val.lift2 (@interp1 K (exactBad bad) q tk1 tk) xk xk1)
          setv dbg o v : M K Unit) w1 =
      (do let xk ← vecAt (w.mem l.id).xs k
          let xk1 ← vecAt (w.mem l.id).xs (k - 1)
          let tk1 ← vecAt (w.mem l.id).ts (k - 1)
          let tk ← vecAt (w.mem l.id).ts k
          let v ← liftE (Val.lift2 (@interp1 K (Arith.exact K) q tk1 tk) xk xk1)
          setv dbg o v : M K Unit) w1 := by
    intro q k h0 w1
    simp only [bind_apply, vecAt]
    cases (w.mem l.id).xs[k]? with
    | none => rfl
    | some x =>
      cases (w.mem l.id).xs[k - 1]? with
      | none => rfl
      | some y =>
        cases h2 : (w.mem l.id).ts[k - 1]? with
        | none => rfl
        | some tk1 =>
          cases h1 : (w.mem l.id).ts[k]? with
          | none => rfl
          | some tk => simp only [pure_apply]; rw [key q k tk tk1 x y h1 h0 h2]
  simp only [Leaf.act, Leaf.actBody, hk, bind_apply, emit, delayAct, getMem]
  cases hts : (w.mem l.id).ts with
  | nil => rfl
  | cons tf rest =>
    rw [hts] at e
    simp only [bind_apply]
    cases getScalar dbg sd { w with log := Event.act l.id t :: w.log } with
    | error e w1 => rfl
    | ok d w1 =>
      show (if decide (t - d ≤ tf) = true then _ else if decide (rest.getLastD tf ≤ t - d) = true then _ else _ : M K Unit) w1 =
        (if decide (t - d ≤ tf) = true then _ else if decide (rest.getLastD tf ≤ t - d) = true then _ else _ : M K Unit) w1
      split
      · rfl
      · split
        · rfl
        · show (if @countBefore K (Arith.exact K) (t - d) (tf :: rest) = 0 then _ else _ : M K Unit) w1 =
            (if @countBefore K (Arith.exact K) (t - d) (tf :: rest) = 0 then _ else _ : M K Unit) w1
          split
          · rfl
          · rename_i hk0
            exact e _ _ hk0 w1

/-- `post_step` keeps the record in order and appends the time and the value of the input; in debug builds, and in release
builds as long as time increases. -/
theorem C38_record : letI := Arith.exact K; ∀ (dbg : Bool) (l : Leaf K) (ls : K) (sx sd si o : SigId), l.kind = .delay ls sx sd si o →
    ∀ (t : K) (w w' : World K), Record (w.mem l.id).ts (w.mem l.id).xs →
      (dbg = true ∨ ∀ s ∈ (w.mem l.id).ts, s < t) → l.post dbg t w = .ok () w' →
      Record (w'.mem l.id).ts (w'.mem l.id).xs ∧ (w'.mem l.id).ts.getLast? = some t ∧
        (w'.mem l.id).xs.getLast? = (w.sig sx).value := by
  intro dbg l ls sx sd si o hk t w w' hr ht h
  letI := Arith.exact K
  have h := post_log h
  simp only [Leaf.postBody, hk] at h
  obtain ⟨v, h1, _, h3, h4, rfl⟩ := delayPost_ok h
  dsimp only at h3 h4 h1 ⊢
  generalize hn : countBefore (t -. ls) (w.mem l.id).ts = k at *
  have hlen : (List.drop k (w.mem l.id).xs).length = (List.drop k (w.mem l.id).ts).length := by simp [hr.len]
  refine ⟨⟨?_, ?_⟩, ?_, ?_⟩
  · simp only [upd, if_true]
    rw [List.pairwise_append]
    refine ⟨hr.incr.sublist (List.drop_sublist _ _), List.pairwise_singleton _ _, fun a ha b hb => ?_⟩
    simp only [List.mem_singleton] at hb
    rw [hb]
    rcases ht with hd | ht
    · have hne : List.drop k (w.mem l.id).ts ≠ [] := List.ne_nil_of_mem ha
      have hl := h3 hd _ (List.getLast?_eq_getLast_of_ne_nil hne)
      have hl : (List.drop k (w.mem l.id).ts).getLast hne < t := of_decide_eq_true hl
      have hp := hr.incr.sublist (List.drop_sublist k _)
      obtain ⟨i, hi, rfl⟩ := List.mem_iff_getElem.1 ha
      rw [List.getLast_eq_getElem] at hl
      rcases Nat.lt_or_ge i ((List.drop k (w.mem l.id).ts).length - 1) with h5 | h5
      · exact lt_trans (List.pairwise_iff_getElem.1 hp _ _ hi (by omega) h5) hl
      · have : i = (List.drop k (w.mem l.id).ts).length - 1 := by omega
        subst this; exact hl
    · exact ht a (List.mem_of_mem_drop ha)
  · simp only [upd, if_true, List.length_append, List.length_singleton, hlen]
  · simp [upd]
  · simp [upd, h1]

end

/-! ## Times that compare with nothing -/

section
variable {K : Type} [Arith K]

/-- In arithmetic with values that compare with nothing (IEEE NaN): if `t - delay` is such a value the search runs past the
end of the record, which is an access out of bounds. -/
theorem C38_nan_out_of_bounds (dbg : Bool) (l : Leaf K) (ls : K) (sx sd si o : SigId) (hk : l.kind = .delay ls sx sd si o)
    (t d : K) (w : World K) (hd : Holds dbg w sd (.scalar d)) (hne : (w.mem l.id).ts ≠ []) (hlen : (w.mem l.id).xs.length = (w.mem l.id).ts.length)
    (hnan : ∀ s ∈ (w.mem l.id).ts, ((t -. d) <=. s) = false ∧ (s <=. (t -. d)) = false) :
    ∃ w', l.act dbg t w = .error (.ub .outOfBounds) w' := by
  cases hts : (w.mem l.id).ts with
  | nil => exact (hne hts).elim
  | cons tf rest =>
    rw [hts] at hnan hlen
    have e : rest.getLastD tf ∈ tf :: rest := by
      cases rest with
      | nil => simp
      | cons a r =>
        have : (a :: r).getLastD tf = (a :: r).getLast (by simp) := by simp [List.getLastD]
        rw [this]
        exact List.mem_cons_of_mem _ (List.getLast_mem _)
    have hc : countBefore (t -. d) (tf :: rest) = (tf :: rest).length := by
      unfold countBefore
      rw [List.takeWhile_eq_self_iff.2 (fun s hs => by simp [(hnan s hs).1])]
    have hx : (w.mem l.id).xs[(tf :: rest).length]? = none := by rw [List.getElem?_eq_none_iff, hlen]
    refine ⟨{ w with log := .act l.id t :: w.log }, ?_⟩
    simp only [Leaf.act, Leaf.actBody, hk, delayAct, bind_apply, getMem, emit, hts, getScalar]
    rw [getv_log hd]
    simp only [pure_apply, (hnan tf (by simp)).1, (hnan _ e).2, Bool.false_eq_true, if_false, hc]
    rw [if_neg (by simp)]
    simp only [bind_apply, vecAt, hx, throwE_apply]

end

/-! ## Example -/

/-- Records (0, 10), (1, 20), (3, 0); signal 1 is the delay 1/2, signal 2 the initial value, signal 3 the output. -/
def sample : World ℚ where
  sig s := if s = 1 then ⟨.scalar, true, some (.scalar (1/2))⟩ else if s = 2 then ⟨.scalar, true, some (.scalar 7)⟩
    else ⟨.scalar, false, none⟩
  mem _ := { value := .scalar 0, ts := [0, 1, 3], xs := [.scalar 10, .scalar 20, .scalar 0] }
  done _ := false
  log := []

def delay : Leaf ℚ := { id := 4, links := [], kind := .delay 100 0 1 2 3 }

/-- At 5/2 the block looks up time 2, half way between the last two records. -/
example : Outputs true delay (5/2) sample 3 (.scalar 10) := by
  have := C38_between (dbg := true) (l := delay) (t := 5/2) (w := sample) (o := 3) (ls := 100) (d := 1/2) (sx := 0) (sd := 1) (si := 2)
    (ts := [0, 1, 3]) (ys := [10, 20, 0]) rfl rfl rfl ⟨by decide +kernel, rfl⟩ (by decide +kernel) (fun a => ⟨rfl, fun _ => ⟨rfl, rfl⟩⟩)
    (f := 0) (e := 3) rfl rfl (by decide +kernel) (by decide +kernel) (i := 1) (t0 := 1) (t1 := 3) (y0 := 20) (y1 := 0) rfl rfl rfl rfl
    (by decide +kernel) (by decide +kernel)
  have e : (10 : ℚ) = 20 + (0 - 20) / (3 - 1) * (5/2 - 1/2 - 1) := by norm_num
  rw [e]; exact this

example : Outputs true delay (1/2) sample 3 (.scalar 7) :=
  C38_initial (sd := 1) (d := 1/2) (si := 2) (tf := 0) (rest := [1, 3]) rfl rfl (by decide +kernel) (by decide +kernel) (by decide +kernel) (by decide +kernel)

end Pooya.C38
