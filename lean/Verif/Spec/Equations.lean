import Verif.Spec.Reach
import Mathlib.Data.List.Forall2

/-! The equation each block stands for: a relation between the values of its signals. -/

namespace Pooya

variable {K : Type}

/-- `c` is `f a b`, for arrays coefficient by coefficient. -/
inductive Both (f : K → K → K) : Val K → Val K → Val K → Prop
  | scalar (a b : K) : Both f (.scalar a) (.scalar b) (.scalar (f a b))
  | array {n : Nat} (a b : Fin n → K) : Both f (.array (List.ofFn a)) (.array (List.ofFn b)) (.array (List.ofFn fun i => f (a i) (b i)))

/-- `c` is `k * a`. -/
inductive Scaled [Arith K] : Val K → Val K → Val K → Prop
  | scalar (k a : K) : Scaled (.scalar k) (.scalar a) (.scalar (k *. a))
  | int (k a : Int) : Scaled (.int k) (.int a) (.int (k * a))
  | array {n : Nat} (k : K) (a : Fin n → K) : Scaled (.scalar k) (.array (List.ofFn a)) (.array (List.ofFn fun i => k *. a i))

/-- Combining `acc` with the values of the signals, one after the other, yields `r`. -/
inductive Folded (val : SigId → Option (Val K)) (f : K → K → K) : Val K → List SigId → Val K → Prop
  | nil (acc : Val K) : Folded val f acc [] acc
  | cons {acc v acc' r : Val K} {s : SigId} {ss : List SigId} : val s = some v → Both f acc v acc' → Folded val f acc' ss r →
      Folded val f acc (s :: ss) r

/-- The signals hold these values. -/
def Shows (val : SigId → Option (Val K)) (ss : List SigId) (vs : List (Val K)) : Prop := List.Forall₂ (fun s v => val s = some v) ss vs

/-- The signals hold the given values; where `none` is given nothing is required. -/
def Given (val : SigId → Option (Val K)) (ss : List SigId) (vs : List (Option (Val K))) : Prop :=
  ∀ (i : Nat) (s : SigId) (v : Val K), ss[i]? = some s → vs[i]? = some (some v) → val s = some v

/-- The value a `Delay` with the record `ts`, `xs` finds for the time `q`. -/
inductive Recalled [Arith K] (ts : List K) (xs : List (Val K)) (q : K) (init : Val K) : Val K → Prop
  | before {t0 : K} {rest : List K} : ts = t0 :: rest → (q <=. t0) = true → Recalled ts xs q init init
  | after {t0 tn : K} {rest : List K} {v : Val K} : ts = t0 :: rest → (q <=. t0) = false → ts.getLast? = some tn → (tn <=. q) = true →
      xs.getLast? = some v → Recalled ts xs q init v
  | between {t0 ta tb tn : K} {rest : List K} {i : Nat} {a b v : Val K} : ts = t0 :: rest → (q <=. t0) = false →
      ts.getLast? = some tn → (tn <=. q) = false →
      (∀ (j : Nat) (s : K), j ≤ i → ts[j]? = some s → (q <=. s) = false) → ts[i]? = some ta → ts[i + 1]? = some tb → (q <=. tb) = true →
      xs[i]? = some a → xs[i + 1]? = some b →
      Both (fun y x => (((y -. x) *. (q -. ta)) /. (tb -. ta)) +. x) b a v → Recalled ts xs q init v

/-- The equation of a block at time `t`, with the members `mem`. -/
def Leaf.Solved [Arith K] (l : Leaf K) (t : K) (mem : Mem K) (val : SigId → Option (Val K)) : Prop :=
  match l.kind with
  | .const v o => val o = some v
  | .source f o => ∃ v, f t = .ok v ∧ val o = some v
  | .sources f os => (f t).2 = none ∧ Given val os (f t).1
  | .gain k x o => ∃ a r, val x = some a ∧ Scaled k a r ∧ val o = some r
  | .add init ins o => ∃ r, Folded val (· +. ·) init ins r ∧ val o = some r
  | .multiply init ins o => ∃ r, Folded val (· *. ·) init ins r ∧ val o = some r
  | .subtract x1 x2 o => ∃ a b r, val x1 = some a ∧ val x2 = some b ∧ Both (· -. ·) a b r ∧ val o = some r
  | .divide x1 x2 o => ∃ a b r, val x1 = some a ∧ val x2 = some b ∧ Both (· /. ·) a b r ∧ val o = some r
  | .pipe x o => ∃ v, val x = some v ∧ val o = some v
  | .memory _ o => val o = some mem.value
  | .delay _ _ d i o =>
      if mem.ts = [] then ∃ v, val i = some v ∧ val o = some v
      else ∃ dv r, val d = some (.scalar dv) ∧ val o = some r ∧ ∃ init, Recalled mem.ts mem.xs (t -. dv) init r ∧
        ((∃ t0 rest, mem.ts = t0 :: rest ∧ ((t -. dv) <=. t0) = true) → val i = some init)
  | .derivative x o =>
      if mem.firstStep = true then val o = some mem.value
      else ∃ t0, mem.t = some t0 ∧
        if (t0 ==. t) = true then val o = some mem.value
        else ∃ v v0 r, val x = some v ∧ mem.x = some v0 ∧ Both (fun a b => (a -. b) /. (t -. t0)) v v0 r ∧ val o = some r
  | .integrator _ _ => True
  | .trigInt _ _ _ => True
  | .siso f x o => ∃ v r, val x = some v ∧ f t v = .ok r ∧ val o = some r
  | .so f rs o => ∃ vs r, Shows val rs vs ∧ f t vs = .ok r ∧ val o = some r
  | .func f rs os => ∃ vs, Shows val rs vs ∧ (f t vs).2 = none ∧ Given val os (f t vs).1
  | .builder => True
  | .custom c => ∃ vs r, Shows val c.reads vs ∧ c.act t mem.user vs = .ok r ∧ Given val c.outs r.2

/-- The equation does not involve members of the block. -/
def Leaf.Algebraic (l : Leaf K) : Prop :=
  match l.kind with
  | .memory .. | .delay .. | .derivative .. | .custom _ => False
  | _ => True

/-- The user code of the block always gives a value for every output. -/
def Leaf.Complete (l : Leaf K) : Prop :=
  match l.kind with
  | .sources f os => ∀ t, os.length ≤ (f t).1.length ∧ none ∉ (f t).1
  | .func f _ os => ∀ t vs, (f t vs).2 = none → os.length ≤ (f t vs).1.length ∧ none ∉ (f t vs).1
  | .custom c => ∀ t u vs r, c.act t u vs = .ok r → c.outs.length ≤ r.2.length ∧ none ∉ r.2
  | _ => True

/-- The diagram has no algebraic loop: the signals can be numbered such that every block computes signals from signals with smaller numbers. -/
def LoopFree (L : List (Leaf K)) : Prop := ∃ rank : SigId → Nat, ∀ l ∈ L, ∀ s ∈ l.outs, ∀ x ∈ l.reads, rank x < rank s

/-- The values of the signals that are assigned. -/
def World.shown (w : World K) (s : SigId) : Option (Val K) := if (w.sig s).assigned then (w.sig s).value else none

end Pooya
