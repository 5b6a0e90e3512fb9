import Verif.Spec.Sealed
import Verif.Spec.Trajectory
import Verif.Model.Field
import Mathlib.Data.Real.Basic
import Mathlib.Analysis.Calculus.Deriv.Basic
import Mathlib.Topology.Order.Basic

/-! Diagrams of scalar signals, as one draws them: blocks with their parameters, and the names of the signals between them.  The meaning of such a
drawing in continuous time: functions of time that satisfy the equations of the blocks. -/

namespace Pooya

open Set

attribute [local instance] Arith.exact

/-- The classes of blocks, with the arguments of their constructors.  `func` is a `Function` whose code assigns `f(t, ibus.at(0))` to `obus.at(0)`. -/
inductive Part where
  | const (v : ℝ)
  | source (f : ℝ → ℝ)
  | gain (k : ℝ)
  | add (v : ℝ)
  | multiply (v : ℝ)
  | subtract
  | divide
  | pipe
  | siso (f : ℝ → ℝ → ℝ)
  | func (f : ℝ → ℝ → ℝ)
  | integrator (x0 : ℝ)
  | delay (life : ℝ)

/-- A block, its inputs and its output.  The inputs of a `Delay` are those labelled `in`, `delay` and `initial`, in this order. -/
structure Piece where
  id : BlkId
  part : Part
  ins : List SigId
  out : SigId

/-- The blocks, and the signals the user's input function assigns. -/
structure Sketch where
  pieces : List Piece
  inputs : List (SigId × (ℝ → ℝ))

def Part.isIntegrator : Part → Bool
  | .integrator _ => true
  | _ => false

def Part.isDelay : Part → Bool
  | .delay _ => true
  | _ => false

/-- The equation of the block at time `t`.  Those of integrators and delays involve other times. -/
def Piece.Holds (p : Piece) (t : ℝ) (X : SigId → ℝ) : Prop :=
  match p.part, p.ins with
  | .const v, [] => X p.out = v
  | .source f, _ => X p.out = f t
  | .gain k, [x] => X p.out = k * X x
  | .add v, xs => X p.out = v + (xs.map X).sum
  | .multiply v, xs => X p.out = v * (xs.map X).prod
  | .subtract, [x, y] => X p.out = X x - X y
  | .divide, [x, y] => X p.out = X x / X y
  | .pipe, [x] => X p.out = X x
  | .siso f, [x] => X p.out = f t (X x)
  | .func f, x :: _ => X p.out = f t (X x)
  | .integrator _, [_] => True
  | .delay _, [_, _, _] => True
  | _, _ => False

/-- The number of inputs is right. -/
def Piece.Fits (p : Piece) : Prop :=
  match p.part, p.ins with
  | .const _, [] => True
  | .source _, _ => True
  | .add _, _ :: _ | .multiply _, _ :: _ | .func _, _ :: _ => True
  | .gain _, [_] | .pipe, [_] | .siso _, [_] | .integrator _, [_] => True
  | .subtract, [_, _] | .divide, [_, _] => True
  | .delay _, [_, _, _] => True
  | _, _ => False

/-- The values of the signals at time `t` satisfy the equations of the blocks; the inputs have the values the user gives them. -/
structure Sketch.Meets (d : Sketch) (t : ℝ) (X : SigId → ℝ) : Prop where
  blocks : ∀ p ∈ d.pieces, p.Holds t X
  inputs : ∀ u ∈ d.inputs, X u.1 = u.2 t

/-- A course of all signals from time `a` to time `b`, with breaks at the times `J`: the equations hold at all times, denominators stay away from zero, the integrators
begin with their initial values, and their outputs are continuous and have their inputs as derivatives except at the times `J`.  A `Delay` shows its input `in`, which is
continuous, at the time that lies back by the value of `delay`, or, before that time comes after `a`, the value of `initial`. -/
structure Sketch.Course (d : Sketch) (J : Finset ℝ) (a b : ℝ) (X : SigId → ℝ → ℝ) : Prop where
  meets : ∀ t ∈ Icc a b, d.Meets t (fun s => X s t)
  defined : ∀ p ∈ d.pieces, ∀ x y, p.part = .divide → p.ins = [x, y] → ∃ c > 0, ∀ t ∈ Icc a b, c ≤ |X y t|
  initial : ∀ p ∈ d.pieces, ∀ x0, p.part = .integrator x0 → X p.out a = x0
  cont : ∀ p ∈ d.pieces, p.part.isIntegrator = true → ContinuousOn (X p.out) (Icc a b)
  integrates : ∀ p ∈ d.pieces, ∀ x0 x, p.part = .integrator x0 → p.ins = [x] → ∀ t ∈ Icc a b, t ∉ J → HasDerivWithinAt (X p.out) (X x t) (Icc a b) t
  delays : ∀ p ∈ d.pieces, ∀ life x e i, p.part = .delay life → p.ins = [x, e, i] → ContinuousOn (X x) (Icc a b) ∧
    ∀ t ∈ Icc a b, X p.out t = if t - X e t ≤ a then X i t else X x (t - X e t)

/-- Bounded, and continuous except at the times `J`. -/
def Piecewise (J : Finset ℝ) (a b : ℝ) (f : ℝ → ℝ) : Prop := (∃ K, ∀ t ∈ Icc a b, |f t| ≤ K) ∧ ContinuousOn f (Icc a b \ J)

/-- The user's functions of time are bounded and continuous except at the times `J`; those of time and a value also Lipschitz continuous in the value, on bounded
sets. -/
def Part.Regular (J : Finset ℝ) (a b : ℝ) : Part → Prop
  | .source f => Piecewise J a b f
  | .siso f | .func f => (∀ x, Piecewise J a b (fun t => f t x)) ∧
      ∀ R, ∃ L, ∀ t ∈ Icc a b, ∀ x y, |x| ≤ R → |y| ≤ R → |f t x - f t y| ≤ L * |x - y|
  | _ => True

/-- The signal is the given function of time: the input function assigns it, or a `Const` or `Source`. -/
def Sketch.Preset (d : Sketch) (s : SigId) (g : ℝ → ℝ) : Prop :=
  (s, g) ∈ d.inputs ∨ ∃ p ∈ d.pieces, p.out = s ∧ (p.part = .source g ∨ ∃ v, p.part = .const v ∧ g = fun _ => v)

/-- The delay times are functions of time, not negative, less than the lifespan of the block; the time that lies back by the delay passes the beginning at the
times `J` only. -/
def Sketch.Timely (d : Sketch) (J : Finset ℝ) (a b : ℝ) : Prop :=
  ∀ p ∈ d.pieces, ∀ life x e i, p.part = .delay life → p.ins = [x, e, i] → ∃ g, d.Preset e g ∧ (∃ c > 0, ∀ t ∈ Icc a b, 0 ≤ g t ∧ g t + c ≤ life) ∧
    ∀ t ∈ Icc a b, t - g t = a → t ∈ J

def Sketch.Regular (d : Sketch) (J : Finset ℝ) (a b : ℝ) : Prop :=
  (∀ p ∈ d.pieces, p.part.Regular J a b) ∧ (∀ u ∈ d.inputs, Piecewise J a b u.2) ∧ d.Timely J a b

/-- Every signal has one origin, a block or the input function; inputs are used; there is no algebraic loop (`rank`). -/
structure Sketch.Closed (d : Sketch) (rank : BlkId → Nat) : Prop where
  ids : (d.pieces.map Piece.id).Nodup
  once : (d.pieces.map Piece.out ++ d.inputs.map Prod.fst).Nodup
  provided : ∀ p ∈ d.pieces, ∀ s ∈ p.ins, s ∈ d.pieces.map Piece.out ++ d.inputs.map Prod.fst
  used : ∀ u ∈ d.inputs, ∃ p ∈ d.pieces, u.1 ∈ p.ins
  loops : ∀ p ∈ d.pieces, p.part.isIntegrator = false → ∀ q ∈ d.pieces, q.out ∈ p.ins → q.part.isIntegrator = true ∨ rank q.id < rank p.id

/-- The function of a `Function` block. -/
noncomputable def Part.code (f : ℝ → ℝ → ℝ) (t : ℝ) : List (Val ℝ) → List (Option (Val ℝ)) × Option Err
  | [.scalar x] => ([some (.scalar (f t x))], none)
  | _ => ([some (.scalar 0)], none)

/-- The object: `Const`, `Source`, `Gain`, `Add`, `Multiply`, `Subtract`, `Divide`, `Pipe`, `SISOFunction`, `Function`, `Integrator`, `Delay`, for `double`. -/
noncomputable def Part.make : Part → Make ℝ
  | .const v => .const .double (.scalar v)
  | .source f => .source .double (fun t => .ok (.scalar (f t)))
  | .gain k => .gain .double (.scalar k)
  | .add v => .add .double (.scalar v)
  | .multiply v => .multiply .double (.scalar v)
  | .subtract => .subtract .double
  | .divide => .divide .double
  | .pipe => .pipe .double
  | .siso f => .siso .double (fun t v => match v with | .scalar x => .ok (.scalar (f t x)) | _ => .ok (.scalar 0))
  | .func f => .func none none (Part.code f) [.idx 0] [.idx 0]
  | .integrator _ => .integrator .double
  | .delay life => .delay .double life

/-- The entries of the input bus: under any labels, for a `Delay` under the labels the block asks for, in any order. -/
def Piece.Bus (p : Piece) (ibus : Entries) : Prop :=
  match p.part, p.ins with
  | .delay _, [x, e, i] => ibus.Perm [(str "in", Signal.val x .scalar), (str "delay", Signal.val e .scalar), (str "initial", Signal.val i .scalar)]
  | .delay _, _ => False
  | _, ins => ibus.map Prod.snd = ins.map (fun s => Signal.val s .scalar)

/-- The object connected to its signals. -/
structure Piece.Wired (p : Piece) (w : Wire ℝ) : Prop where
  id : w.id = p.id
  obj : w.obj = p.part.make
  ibus : p.Bus w.ibus
  obus : w.obus.map Prod.snd = [Signal.val p.out .scalar]

/-- The program that builds and simulates the drawing, in a debug build: the blocks are connected in any order, grouped in any submodels; any of the simulator
kinds and of the methods.  Without integrators there may be no method; the simulator that reuses the order of the first step needs one. -/
structure Config.Draws (cfg : Config ℝ) (d : Sketch) : Prop where
  dbg : cfg.dbg = true
  assembled : ∃ ps ws, d.pieces.Perm ps ∧ List.Forall₂ Piece.Wired ps ws ∧ cfg.Assembled ws
  proper : cfg.model.Proper
  hash : ∀ l, (cfg.hash l).Perm l
  inputs : (cfg.inputs = none ∧ d.inputs = []) ∨ cfg.inputs = some (fun t => (d.inputs.map (fun u => (u.1, Val.scalar (u.2 t))), none))
  modelInput : ∀ t, cfg.modelInput t = ([], none)
  stepper : (cfg.stepper = none ∧ ∀ p ∈ d.pieces, p.part.isIntegrator = false) ∨ ∃ st ∈ [euler, rk4, rkf45], cfg.stepper = some st
  reuse : cfg.strategy = .reuse → ∃ p ∈ d.pieces, p.part.isIntegrator = true

/-- The new objects: all signals of the drawing are scalars, the integrators hold their initial values, the records of the delays are empty. -/
structure World.Begins (w : World ℝ) (d : Sketch) : Prop where
  types : ∀ p ∈ d.pieces, (∀ s ∈ p.ins, (w.sig s).ty = .scalar) ∧ (w.sig p.out).ty = .scalar
  cells : ∀ s, (w.sig s).Fine
  done : ∀ b, w.done b = false
  log : w.log = []
  initial : ∀ p ∈ d.pieces, ∀ x0, p.part = .integrator x0 → (w.mem p.id).value = .scalar x0
  empty : ∀ p ∈ d.pieces, p.part.isDelay = true → (w.mem p.id).ts = [] ∧ (w.mem p.id).xs = []

end Pooya
