import Verif.Proof.Formula
import Verif.Model.Field

/-! The record of `DelayT`. -/

namespace Pooya

set_option linter.unusedSectionVars false

variable {K : Type} [Arith K]

/-- What `post_step` of a `Delay` that returns did. -/
theorem delayPost_ok {dbg : Bool} {b : BlkId} {t ls : K} {sx : SigId} {w w' : World K} (h : delayPost dbg b t ls sx w = .ok () w') :
    ∃ v, (w.sig sx).value = some v ∧ (dbg = true → (w.sig sx).assigned = true) ∧
      (dbg = true → ∀ l, ((w.mem b).ts.drop (countBefore (t -. ls) (w.mem b).ts)).getLast? = some l → (l <. t) = true) ∧
      countBefore (t -. ls) (w.mem b).ts ≤ (w.mem b).xs.length ∧
      w' = { w with mem := upd w.mem b { w.mem b with
        ts := (w.mem b).ts.drop (countBefore (t -. ls) (w.mem b).ts) ++ [t]
        xs := (w.mem b).xs.drop (countBefore (t -. ls) (w.mem b).ts) ++ [v] } } := by
  unfold delayPost at h
  simp only [bind_apply, getMem] at h
  split at h
  · cases h
  · rename_i hlen
    simp only [bind_apply, setMem] at h
    split at h
    · rename_i a w1 hv
      rw [debugVerify_ok] at hv
      obtain ⟨hv, rfl⟩ := hv
      simp only at h
      unfold getv at h
      dsimp only at h
      split at h
      · rename_i h1
        split at h1
        · cases h1
        · rename_i hass
          split at h1
          · cases h1
          · rename_i v hval
            cases h1
            cases h
            refine ⟨_, hval, ?_, ?_, by omega, ?_⟩
            · intro hd; simpa [hd] using hass
            · intro hd l hl
              have := hv hd
              rw [hl] at this
              exact this
            · congr 1
              funext x
              by_cases hx : x = b
              · subst hx; simp [upd]
              · simp [upd, hx]
      · cases h
    · cases h

theorem post_log {dbg : Bool} {l : Leaf K} {t : K} {w w' : World K} (h : l.post dbg t w = .ok () w') :
    l.postBody dbg t { w with log := .post l.id t :: w.log } = .ok () w' := by
  unfold Leaf.post at h
  rwa [bind_apply] at h

/-- A block whose activation function computes `x` and assigns it. -/
theorem outputs_iff {dbg : Bool} {l : Leaf K} {t : K} {w : World K} {o : SigId} {x : Except Err (Val K)}
    (hb : ∀ lg, l.actBody dbg t { w with log := lg } = (do let v ← liftE x; setv dbg o v : M K Unit) { w with log := lg }) (v : Val K) :
    Outputs dbg l t w o v ↔ x = .ok v ∧ Takes dbg w o v := by
  constructor
  · rintro ⟨w', h, hp, _⟩
    unfold Leaf.act at h
    rw [bind_apply] at h
    simp only [emit] at h
    rw [hb, bind_apply] at h
    cases x with
    | error e => simp at h
    | ok u =>
      simp only [liftE_ok] at h
      unfold setv at h
      split at h
      · cases h
      split at h
      · cases h
      split at h
      · cases h
      rename_i h1 h2 h3
      cases h
      have := hp.value
      simp only [upd, if_true, Option.some.injEq] at this
      subst this
      refine ⟨rfl, by simpa using h1, fun hd => ?_⟩
      subst hd
      simp only [Bool.true_and, Bool.not_eq_true, Bool.not_eq_false'] at h2 h3
      exact ⟨h2, by simpa using h3⟩
  · rintro ⟨rfl, ho⟩
    exact outputs_eq (fun lg => by rw [hb]; rfl) ho

/-- Reading a cell. -/
def readE (dbg : Bool) (c : Cell K) : Except Err (Val K) :=
  if dbg && !c.assigned then .error (.exc .unassigned)
  else match c.value with
    | none => .error (.ub .uninitRead)
    | some v => .ok v

theorem getv_readE (dbg : Bool) (s : SigId) (w : World K) : getv dbg s w = (liftE (readE dbg (w.sig s)) : M K (Val K)) w := by
  unfold getv readE
  split
  · rfl
  · cases (w.sig s).value <;> rfl

theorem readE_holds {dbg : Bool} {w : World K} {s : SigId} {v : Val K} (h : Holds dbg w s v) : readE dbg (w.sig s) = .ok v := by
  unfold readE
  cases dbg
  · simp [h.1]
  · simp [h.1, h.2 rfl]

/-- What `Delay` computes when the delay is `d`. -/
def delayE (q : K) (i : Except Err (Val K)) (ts : List K) (xs : List (Val K)) : Except Err (Val K) :=
  match ts with
  | [] => i
  | t0 :: rest =>
    if q <=. t0 then i
    else if (rest.getLastD t0) <=. q then
      match xs.getLast? with
      | some v => .ok v
      | none => .error (.ub .outOfBounds)
    else if countBefore q ts = 0 then .error (.ub .outOfBounds)
    else match xs[countBefore q ts]?, xs[countBefore q ts - 1]?, ts[countBefore q ts - 1]?, ts[countBefore q ts]? with
      | some xk, some xk1, some tk1, some tk => Val.lift2 (interp1 q tk1 tk) xk xk1
      | _, _, _, _ => .error (.ub .outOfBounds)

theorem delayAct_eq {dbg : Bool} {b : BlkId} {t d : K} {sd si out : SigId} {w : World K} (hd : Holds dbg w sd (.scalar d)) :
    delayAct dbg b t sd si out w =
      (do let v ← liftE (delayE (t -. d) (readE dbg (w.sig si)) (w.mem b).ts (w.mem b).xs); setv dbg out v : M K Unit) w := by
  unfold delayAct delayE
  simp only [bind_apply, getMem]
  cases hts : (w.mem b).ts with
  | nil => simp only [bind_apply, getv_readE]
  | cons t0 rest =>
    simp only [bind_apply, getScalar]
    rw [getv_holds hd]
    simp only [pure_apply]
    split
    · simp only [bind_apply, getv_readE]
    · split
      · cases (w.mem b).xs.getLast? <;> rfl
      · split
        · rfl
        · simp only [bind_apply, vecAt]
          cases (w.mem b).xs[countBefore (t -. d) (t0 :: rest)]? with
          | none => rfl
          | some a =>
            cases (w.mem b).xs[countBefore (t -. d) (t0 :: rest) - 1]? with
            | none => rfl
            | some a =>
              cases (t0 :: rest)[countBefore (t -. d) (t0 :: rest) - 1]? with
              | none => rfl
              | some a =>
                cases (t0 :: rest)[countBefore (t -. d) (t0 :: rest)]? <;> rfl

section
variable {K : Type} [Field K] [LinearOrder K] [IsStrictOrderedRing K]
attribute [local instance] Arith.exact

/-- In an increasing list the leading elements before `q` are all elements before `q`. -/
theorem lt_countBefore {q : K} {ts : List K} (hs : ts.Pairwise (· < ·)) (i : Nat) (hi : i < ts.length) :
    i < countBefore q ts ↔ ts[i] < q := by
  induction ts generalizing i with
  | nil => simp at hi
  | cons a as ih =>
    rw [List.pairwise_cons] at hs
    unfold countBefore
    rw [List.takeWhile_cons]
    by_cases h : q ≤ a
    · have e : (!(q <=. a)) = false := by simp [h]
      rw [e]
      simp only [Bool.false_eq_true, if_false, List.length_nil, Nat.not_lt_zero, false_iff, not_lt]
      cases i with
      | zero => exact h
      | succ i => exact le_trans h (le_of_lt (hs.1 _ (by simp)))
    · have e : (!(q <=. a)) = true := by simp [h]
      rw [e]
      simp only [if_true, List.length_cons]
      cases i with
      | zero => simpa using h
      | succ i =>
        have := ih hs.2 i (by simpa using hi)
        unfold countBefore at this
        simpa using this

theorem countBefore_le {K : Type} [Arith K] (q : K) (ts : List K) : countBefore q ts ≤ ts.length :=
  (List.takeWhile_sublist _).length_le

/-- Leading records do not matter if a later one is before `q`. -/
theorem delayE_suffix {q : K} {i : Except Err (Val K)} {ps : List K} {ys : List (Val K)} {f : K} {rest : List K} {xs : List (Val K)}
    (hs : (ps ++ f :: rest).Pairwise (· < ·)) (hl : ys.length = ps.length) (hlx : xs.length = (f :: rest).length) (hq : f < q) :
    delayE q i (f :: rest) xs = delayE q i (ps ++ f :: rest) (ys ++ xs) := by
  cases ps with
  | nil => cases ys with
    | nil => rfl
    | cons => simp at hl
  | cons p ps =>
    have hp : p < f := (List.pairwise_cons.1 hs).1 f (by simp)
    have h1 : (q <=. f) = false := decide_eq_false (not_le.2 hq)
    have h2 : (q <=. p) = false := decide_eq_false (not_le.2 (lt_trans hp hq))
    have e1 : (ps ++ f :: rest).getLastD p = rest.getLastD f := by
      cases rest with
      | nil => simp [List.getLastD_eq_getLast?]
      | cons a r => simp [List.getLastD_eq_getLast?, List.getLast?_eq_some_getLast (l := a :: r) (by simp)]
    have hx : xs ≠ [] := by intro h; simp [h] at hlx
    have e2 : (ys ++ xs).getLast? = xs.getLast? := by
      rw [List.getLast?_append, List.getLast?_eq_some_getLast hx]; rfl
    have h5 : (f :: rest).Pairwise (· < ·) := (List.pairwise_append.1 hs).2.1
    have h6 : 0 < countBefore q (f :: rest) := (lt_countBefore h5 0 (by simp)).2 (by simpa using hq)
    have e3 : countBefore q (p :: ps ++ f :: rest) = (p :: ps).length + countBefore q (f :: rest) := by
      have hall : ∀ a ∈ p :: ps, (!(q <=. a)) = true := fun a ha => by
        have : a < f := (List.pairwise_append.1 hs).2.2 a ha f (by simp)
        simp [lt_trans this hq]
      unfold countBefore
      rw [List.takeWhile_append_of_pos hall, List.length_append]
    rw [List.cons_append] at e3
    have e4 : countBefore q (p :: (ps ++ f :: rest)) - 1 = (p :: ps).length + (countBefore q (f :: rest) - 1) := by omega
    unfold delayE
    simp only [List.cons_append, h1, h2, Bool.false_eq_true, if_false, e1, e2]
    rw [e4, e3]
    have a1 : ∀ n, (ys ++ xs)[(p :: ps).length + n]? = xs[n]? := fun n => by
      rw [← hl, List.getElem?_append_right (by omega)]; congr 1; omega
    have a2 : ∀ n, (p :: (ps ++ f :: rest))[(p :: ps).length + n]? = (f :: rest)[n]? := fun n => by
      rw [← List.cons_append, List.getElem?_append_right (by omega)]; congr 1; omega
    simp only [a1, a2]
    rw [if_neg (by omega : ¬ countBefore q (f :: rest) = 0), if_neg (by omega : ¬ (p :: ps).length + countBefore q (f :: rest) = 0)]
end

end Pooya
