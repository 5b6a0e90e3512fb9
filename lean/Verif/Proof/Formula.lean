import Verif.Spec.Cells
import Verif.Proof.Monad

/-! Evaluation of activation functions on diagrams whose signals are known. -/

namespace Pooya

set_option linter.unusedSectionVars false

variable {K : Type}

theorem getv_holds {dbg : Bool} {w : World K} {s : SigId} {v : Val K} (h : Holds dbg w s v) : getv dbg s w = .ok v w := by
  unfold getv
  cases dbg
  · simp [h.1]
  · simp [h.1, h.2 rfl]

theorem setv_takes {dbg : Bool} {w : World K} {s : SigId} {v : Val K} (h : Takes dbg w s v) :
    setv dbg s v w = .ok () { w with sig := upd w.sig s { w.sig s with assigned := true, value := some v } } := by
  unfold setv
  cases dbg
  · simp [h.1]
  · simp [h.1, h.2 rfl]

theorem put_upd (w : World K) (o : SigId) (v : Val K) :
    Put w o v { w with sig := upd w.sig o { w.sig o with assigned := true, value := some v } } :=
  ⟨by simp [upd], by simp [upd], by simp [upd], fun s hs => by simp [upd, hs], rfl, rfl⟩

variable [Arith K]

/-- A block whose activation function amounts to an assignment. -/
theorem outputs_eq {dbg : Bool} {l : Leaf K} {t : K} {w : World K} {o : SigId} {v : Val K}
    (hb : ∀ lg, l.actBody dbg t { w with log := lg } = setv dbg o v { w with log := lg }) (ho : Takes dbg w o v) :
    Outputs dbg l t w o v := by
  refine ⟨{ w with log := .act l.id t :: w.log, sig := upd w.sig o { w.sig o with assigned := true, value := some v } }, ?_,
    ⟨by simp [upd], by simp [upd], by simp [upd], fun s hs => by simp [upd, hs], rfl, rfl⟩, rfl⟩
  unfold Leaf.act
  rw [bind_apply]
  simp only [emit]
  rw [hb]
  exact setv_takes (w := { w with log := .act l.id t :: w.log }) ho

/-- A block whose activation function computes a value from signals and then assigns it. -/
theorem outputs_of {dbg : Bool} {l : Leaf K} {t : K} {w : World K} {o : SigId} {v : Val K} {x : M K (Val K)}
    (hb : l.actBody dbg t = (do let r ← x; setv dbg o r)) (hx : ∀ lg, x { w with log := lg } = .ok v { w with log := lg })
    (ho : Takes dbg w o v) : Outputs dbg l t w o v :=
  outputs_eq (fun lg => by rw [hb, bind_of_ok (hx lg)]) ho

theorem getv_log {dbg : Bool} {w : World K} {s : SigId} {v : Val K} (h : Holds dbg w s v) (lg : List (Event K)) :
    getv dbg s { w with log := lg } = .ok v { w with log := lg } := getv_holds (w := { w with log := lg }) h

/-- The loop of `AddT` and `MultiplyT` over scalars. -/
theorem foldIns_scalar {dbg : Bool} {w : World K} (f : K → K → K) (x : SigId → K) (ins : List SigId) (acc : K)
    (h : ∀ s ∈ ins, Holds dbg w s (.scalar (x s))) (lg : List (Event K)) :
    foldIns dbg (Val.lift2 f) (.scalar acc) ins { w with log := lg } =
      .ok (.scalar (ins.foldl (fun a s => f a (x s)) acc)) { w with log := lg } := by
  induction ins generalizing acc with
  | nil => rfl
  | cons s ss ih =>
    unfold foldIns
    rw [bind_of_ok (getv_log (h s (by simp)) lg)]
    simp only [Val.lift2, bind_apply, liftE_ok]
    rw [ih _ (fun s hs => h s (by simp [hs]))]
    rfl

theorem zipWith_ofFn (f : K → K → K) {n : Nat} (a b : Fin n → K) :
    List.zipWith f (List.ofFn a) (List.ofFn b) = List.ofFn (fun i => f (a i) (b i)) := by
  apply List.ext_getElem <;> simp

theorem lift2_ofFn (f : K → K → K) {n : Nat} (a b : Fin n → K) :
    Val.lift2 f (arrayOf a) (arrayOf b) = .ok (arrayOf (fun i => f (a i) (b i))) := by
  simp [Val.lift2, arrayOf, zipWith_ofFn]

/-- The loop of `AddT` and `MultiplyT` over arrays. -/
theorem foldIns_array {dbg : Bool} {w : World K} (f : K → K → K) {n : Nat} (x : SigId → Fin n → K) (ins : List SigId) (acc : Fin n → K)
    (h : ∀ s ∈ ins, Holds dbg w s (arrayOf (x s))) (lg : List (Event K)) :
    foldIns dbg (Val.lift2 f) (arrayOf acc) ins { w with log := lg } =
      .ok (arrayOf (fun i => ins.foldl (fun a s => f a (x s i)) (acc i))) { w with log := lg } := by
  induction ins generalizing acc with
  | nil => rfl
  | cons s ss ih =>
    unfold foldIns
    rw [bind_of_ok (getv_log (h s (by simp)) lg)]
    rw [lift2_ofFn]
    simp only [bind_apply, liftE_ok]
    rw [ih _ (fun s hs => h s (by simp [hs]))]
    rfl

end Pooya
