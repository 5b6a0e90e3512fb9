import Verif.Model.Base

/- Model of the ODE steppers: src/solver/{stepper_base,euler,rk4,rkf45}.{hpp,cpp}. -/

namespace Pooya

/-- One call of `StepperBase::step`: a finite interaction that repeatedly calls the callback
(`call t v k`: evaluate the right-hand side at `(t, v)`, continue with its value) and finally yields
`v1` and `new_h` (`ret`).  Any deterministic terminating user-written stepper is of this form;
steppers whose objects carry information from one `step` to the next are not covered. -/
inductive StepProg (K : Type) where
  | ret (v1 : List K) (newH : K)
  | call (t : K) (v : List K) (k : List K → StepProg K)

/-- `StepperBase::step` as a function of `t0`, `v0`, `t1`. -/
abbrev Stepper (K : Type) := K → List K → K → StepProg K

/-- Run a step with a callback living in any monad. -/
def StepProg.exec {K : Type} {m : Type → Type} [Monad m] (f : K → List K → m (List K)) :
    StepProg K → m (List K × K)
  | .ret v h => pure (v, h)
  | .call t v k => do
    let r ← f t v
    (k r).exec f

variable {K : Type} [Arith K]

/-- Coefficient-wise `a + b` of Eigen arrays. -/
def vadd (a b : List K) : List K := List.zipWith (· +. ·) a b
/-- Coefficient-wise `a - b`. -/
def vsub (a b : List K) : List K := List.zipWith (· -. ·) a b
/-- `c * a` for a scalar `c`. -/
def vsmul (c : K) (a : List K) : List K := a.map (fun x => c *. x)

/-- Coefficient-wise absolute value, then `maxCoeff` (src/solver/rkf45.cpp:46). -/
def maxAbs : List K → K
  | [] => Arith.lit 0
  | a :: as => as.foldl (fun m x => fmax m (Arith.abs x)) (Arith.abs a)

/-- Shorthand for source literals such as `12.` -/
local notation "#" n:max => (Arith.lit (n : Rat))

/-- `Euler::step` (src/solver/euler.cpp:24-31). -/
def euler : Stepper K := fun t0 v0 t1 =>
  let h := t1 -. t0
  .call t0 v0 fun k =>
  .ret (vadd v0 (vsmul h k)) h

/-- `Rk4::step` (src/solver/rk4.cpp:24-37). -/
def rk4 : Stepper K := fun t0 v0 t1 =>
  let h := t1 -. t0
  let h2 := h /. #2
  .call t0 v0 fun f1 =>
  let k1 := vsmul h2 f1
  .call (t0 +. h2) (vadd v0 k1) fun f2 =>
  let k2 := vsmul h2 f2
  .call (t0 +. h2) (vadd v0 k2) fun f3 =>
  let k3 := vsmul h f3
  .call (t0 +. h) (vadd v0 k3) fun f4 =>
  let k4 := vsmul h f4
  .ret (vadd (vadd (vadd (vadd v0 (vsmul (#1 /. #3) k1)) (vsmul (#2 /. #3) k2))
    (vsmul (#1 /. #3) k3)) (vsmul (#1 /. #6) k4)) h

/-- `new_h` as a function of `h` and `max_abs` (src/solver/rkf45.cpp:47-60). -/
def rkf45NewH (h maxabs : K) : K :=
  let s4 := if #0 <. maxabs then ((#(1/1000)) *. h) /. (#2 *. maxabs) else #1
  if s4 <. #(31640625/100000000) then h /. #2
  else if (#(50625/10000)) <. s4 then #2 *. h
  else h

/-- `Rkf45::step` (src/solver/rkf45.cpp:25-61).  Products of literals associate to the left as in
C++. -/
def rkf45 : Stepper K := fun t0 v0 t1 =>
  let h := t1 -. t0
  .call t0 v0 fun f1 =>
  let k1 := vsmul h f1
  .call (t0 +. (#1 /. #4) *. h) (vadd v0 (vsmul (#1 /. #4) k1)) fun f2 =>
  let k2 := vsmul h f2
  .call (t0 +. (#3 /. #8) *. h)
    (vadd (vadd v0 (vsmul ((#3 /. #8) *. #1 /. #4) k1)) (vsmul ((#3 /. #8) *. #3 /. #4) k2)) fun f3 =>
  let k3 := vsmul h f3
  .call (t0 +. (#12 /. #13) *. h)
    (vadd (vsub (vadd v0 (vsmul ((#12 /. #13) *. #161 /. #169) k1))
      (vsmul ((#12 /. #13) *. #600 /. #169) k2)) (vsmul ((#12 /. #13) *. #608 /. #169) k3)) fun f4 =>
  let k4 := vsmul h f4
  .call t1
    (vsub (vadd (vsub (vadd v0 (vsmul (#8341 /. #4104) k1)) (vsmul (#32832 /. #4104) k2))
      (vsmul (#29440 /. #4104) k3)) (vsmul (#845 /. #4104) k4)) fun f5 =>
  let k5 := vsmul h f5
  .call (t0 +. (#1 /. #2) *. h)
    (vsub (vadd (vsub (vadd (vsub v0 (vsmul ((#1 /. #2) *. #6080 /. #10260) k1))
      (vsmul ((#1 /. #2) *. #41040 /. #10260) k2)) (vsmul ((#1 /. #2) *. #28352 /. #10260) k3))
      (vsmul ((#1 /. #2) *. #9295 /. #10260) k4)) (vsmul ((#1 /. #2) *. #5643 /. #10260) k5)) fun f6 =>
  let k6 := vsmul h f6
  let v1 := vsub (vadd (vadd (vadd v0 (vsmul (#2375 /. #20520) k1)) (vsmul (#11264 /. #20520) k3))
    (vsmul (#10985 /. #20520) k4)) (vsmul (#4104 /. #20520) k5)
  let zt := vadd (vsub (vadd (vadd (vadd v0 (vsmul (#33440 /. #282150) k1))
    (vsmul (#146432 /. #282150) k3)) (vsmul (#142805 /. #282150) k4)) (vsmul (#50787 /. #282150) k5))
    (vsmul (#10260 /. #282150) k6)
  .ret v1 (rkf45NewH h (maxAbs (vsub v1 zt)))

end Pooya
