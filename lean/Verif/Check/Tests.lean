import Verif.Model.Build
import Verif.Model.BusBlocks
import Verif.Model.History
import Verif.Model.Field
import Verif.Spec.Reach

/-! The unit tests in /repo/tests and some of the programs in /repo/samples, replayed in the model with rational numbers.  These are checks of the
model against what the authors of the code expect, not proofs of properties. -/

namespace Pooya.Tests

/-- A test program: blocks and the buses they are connected to, types of the signals, members after construction, input callback, stepper. -/
structure Program where
  wires : List (Wire ℚ)
  ty : SigId → Ty := fun _ => .scalar
  mem : BlkId → Mem ℚ := fun _ => { value := .scalar 0 }
  inputs : ℚ → List (SigId × Val ℚ) := fun _ => []
  stepper : Option (Stepper ℚ) := none

/-- The simulator for the program; `none` if a `connect` throws. -/
def Program.cfg (p : Program) (dbg : Bool) (st : Strategy) : Option (Config ℚ) :=
  match connectAll dbg p.wires (fun _ => none) with
  | .ok (ls, d) => some
      { dbg := dbg, model := (match ls with | [l] => .leaf l | _ => .sub 1000 [] (ls.map .leaf)), deriv := d, inputs := some (fun t => (p.inputs t, none))
        modelInput := fun _ => ([], none), stepper := p.stepper, strategy := st, hash := id }
  | .error _ => none

/-- The calls one after the other; after each call the values of the signals `see` are noted.  `none` if a call throws. -/
def watch (cfg : Config ℚ) (see : List SigId) : List (Call ℚ) → Machine ℚ → Option (List (List (Option (Val ℚ))))
  | [], _ => some []
  | c :: cs, m =>
    match c.exec cfg m with
    | .ok _ m' => (watch cfg see cs m').map ((see.map (fun s => (m'.w.sig s).value)) :: ·)
    | .error _ _ => none

def Program.watch (p : Program) (dbg : Bool) (st : Strategy) (see : List SigId) (calls : List (Call ℚ)) :
    Option (List (List (Option (Val ℚ)))) :=
  (p.cfg dbg st).bind (fun cfg => Tests.watch cfg see calls
    { w := { sig := fun s => { ty := p.ty s }, mem := p.mem, done := fun _ => false, log := [] }, s := { tPrev := 0 } })

/-- Constructing a bus from signals without labels. -/
def bus (ss : List Signal) : Entries := (mkBusAuto (fun _ => []) 0 ss).2

def sc (i : SigId) : Signal := .val i .scalar

/-- A block of class `obj` with input signals `is` and output signal `o`, without labels. -/
def blk (id : BlkId) (obj : Make ℚ) (is : List Signal) (o : Signal) : Wire ℚ := ⟨id, obj, bus is, bus [o]⟩

/-- `Simulator` or `FastSimulator` -/
def kind (fast : Bool) : Strategy := if fast then .fast else .plain

def one (v : Val ℚ) : Mem ℚ := { value := v }

/-! ### tests/test_scalar_signal.cpp -/

/-- The outcomes of the calls; a call that throws does not end the test. -/
def outcomes (w : World ℚ) : List (M ℚ (Val ℚ)) → List (Except Err (Val ℚ))
  | [] => []
  | c :: cs =>
    match c w with
    | .ok v w' => .ok v :: outcomes w' cs
    | .error e w' => .error e :: outcomes w' cs

def blankWorld : World ℚ := { sig := fun _ => { ty := .scalar }, mem := fun _ => { value := .scalar 0 }, done := fun _ => false, log := [] }

def set0 (x : ℚ) : M ℚ (Val ℚ) := do setv true 0 (.scalar x); pure (.scalar 0)
def clear0 : M ℚ (Val ℚ) := do clearv 0; pure (.scalar 0)

/-- test_scalar_signal.cpp:35-64 -/
example : (outcomes blankWorld [getv true 0, set0 3.7, getv true 0, clear0, getv true 0, set0 3.7, getv true 0, set0 3.7]).map
    (fun r => match r with | .ok v => some v | .error _ => none)
    = [none, some (.scalar 0), some (.scalar 3.7), some (.scalar 0), none, some (.scalar 0), some (.scalar 3.7), none] := by decide +kernel

/-! ### tests/test_bus.cpp -/

/-- test_bus.cpp:35-52 -/
example :
    let bus1 := (mkBus (fun _ => []) [(str "s0", sc 0)]).2
    let bus2 := bus [sc 0, .bus 7 bus1]
    bus1.length = 1 ∧ (busAtIdx bus1 0).toOption.map Signal.id = some 0 ∧ bus2.length = 2 ∧ (busAtIdx bus2 0).toOption.map Signal.id = some 0 := by
  decide +kernel

/-! ### tests/test_gain.cpp -/

def scalarGain : Program where
  wires := [blk 1 (.gain .double (.scalar 2)) [sc 0] (sc 1)]
  inputs _ := [(0, .scalar 3.7)]

/-- test_gain.cpp:39-56 -/
example : ∀ dbg fast, scalarGain.watch dbg (kind fast) [1] [.init 0] = some [[some (.scalar (2 * 3.7))]] := by
  intro dbg fast; cases dbg <;> cases fast <;> decide +kernel

def intGain : Program where
  wires := [blk 1 (.gain .int (.int 2)) [.val 0 .int] (.val 1 .int)]
  ty _ := .int
  inputs _ := [(0, .int 3)]

/-- test_gain.cpp:58-75 -/
example : ∀ dbg fast, intGain.watch dbg (kind fast) [1] [.init 0] = some [[some (.int 6)]] := by
  intro dbg fast; cases dbg <;> cases fast <;> decide +kernel

def arrayGain : Program where
  wires := [blk 1 (.gain .array (.scalar (-5.89))) [.val 0 (.array 4)] (.val 1 (.array 4))]
  ty _ := .array 4
  inputs _ := [(0, .array [3.7, -2.5, 10.45, 0])]

/-- test_gain.cpp:77-98 -/
example : ∀ dbg fast, arrayGain.watch dbg (kind fast) [1] [.init 0] = some [[some (.array [-5.89 * 3.7, -5.89 * -2.5, -5.89 * 10.45, 0])]] := by
  intro dbg fast; cases dbg <;> cases fast <;> decide +kernel

/-! ### tests/test_memory.cpp -/

def scalarMemory : Program where
  wires := [blk 1 (.memory .double) [sc 0] (sc 1)]
  mem _ := one (.scalar (-4.8))
  inputs _ := [(0, .scalar 3.7)]

/-- test_memory.cpp:33-49, and a further step -/
example : ∀ dbg fast, scalarMemory.watch dbg (kind fast) [1] [.init 0, .run 9 1 (1/10) 1] = some [[some (.scalar (-4.8))], [some (.scalar 3.7)]] := by
  intro dbg fast; cases dbg <;> cases fast <;> decide +kernel

def arrayMemory : Program where
  wires := [blk 1 (.memory .array) [.val 0 (.array 4)] (.val 1 (.array 4))]
  ty _ := .array 4
  mem _ := one (.array [-10.56, 0.18, 7.24, -3.67])
  inputs _ := [(0, .array [3.7, -2.5, 10.45, 0])]

/-- test_memory.cpp:51-72 -/
example : ∀ dbg fast, arrayMemory.watch dbg (kind fast) [1] [.init 0] = some [[some (.array [-10.56, 0.18, 7.24, -3.67])]] := by
  intro dbg fast; cases dbg <;> cases fast <;> decide +kernel

/-! ### tests/test_delay.cpp -/

/-- Signals: 0 delay, 1 in, 2 initial, 3 out. -/
def scalarDelay : Program where
  wires := [⟨1, .delay .double 10, (mkBus (fun _ => []) [(str "delay", sc 0), (str "in", sc 1), (str "initial", sc 2)]).2, bus [sc 3]⟩]
  inputs t := [(0, .scalar 2.78), (2, .scalar 0), (1, .scalar (-1.3 * t + 4.92))]

/-- `run` at `t + dt`, `t + 2 dt`, … -/
def steps (t dt : ℚ) : Nat → List (Call ℚ)
  | 0 => []
  | n + 1 => .run 9 (t + dt) (1/1000) 1 :: steps (t + dt) dt n

/-- test_delay.cpp:38-67 with steps of 0.1 -/
example : (scalarDelay.watch true .plain [3] (.init 0 :: steps 0 0.1 73)).bind List.getLast? = some [some (.scalar (-1.3 * (7.3 - 2.78) + 4.92))] := by
  decide +kernel

/-- test_delay.cpp:38-67 with steps of 0.3 and the end of the time at 7.2 -/
example : ∀ dbg fast, (scalarDelay.watch dbg (kind fast) [3] (.init 0 :: steps 0 0.3 4)).bind List.getLast? = some [some (.scalar 0)]
    ∧ (scalarDelay.watch dbg (kind fast) [3] (.init 0 :: steps 0 0.3 24)).bind List.getLast? = some [some (.scalar (-1.3 * (7.2 - 2.78) + 4.92))] := by
  intro dbg fast; cases dbg <;> cases fast <;> decide +kernel

/-- Signals: 0 delay, 1 in, 2 initial, 3 out. -/
def arrayDelay : Program where
  wires := [⟨1, .delay .array 10, (mkBus (fun _ => []) [(str "delay", sc 0), (str "in", .val 1 (.array 5)), (str "initial", .val 2 (.array 5))]).2,
    bus [.val 3 (.array 5)]⟩]
  ty s := if s = 0 then .scalar else .array 5
  inputs t := [(0, .scalar 2.78), (2, .array [0, 0, 0, 0, 0]),
    (1, .array [3.7 * t - 10.56, -2.5 * t + 0.18, 10.45 * t + 7.24, -3.67, -0.02 * t + 0.876])]

/-- test_delay.cpp:69-105 with steps of 0.6 and the end of the time at 7.2 -/
example : ∀ dbg fast, (arrayDelay.watch dbg (kind fast) [3] (.init 0 :: steps 0 0.6 2)).bind List.getLast? = some [some (.array [0, 0, 0, 0, 0])]
    ∧ (arrayDelay.watch dbg (kind fast) [3] (.init 0 :: steps 0 0.6 12)).bind List.getLast?
      = some [some (.array [3.7 * 4.42 - 10.56, -2.5 * 4.42 + 0.18, 10.45 * 4.42 + 7.24, -3.67, -0.02 * 4.42 + 0.876])] := by
  intro dbg fast; cases dbg <;> cases fast <;> decide +kernel

/-! ### samples/test03_integrator.cpp -/

/-- Signals: 0 xd, 1 trigger, 2 x. -/
def triggered : Program where
  wires := [⟨1, .trigInt .double, (mkBus (fun _ => []) [(str "in", sc 0), (str "trigger", .val 1 .bool)]).2, bus [sc 2]⟩]
  ty s := if s = 1 then .bool else .scalar
  mem _ := one (.scalar 1)
  inputs t := [(0, .scalar (if t < 3 ∨ t > 7 then 1 else 0)), (1, .bool (decide (4.9 ≤ t ∧ t ≤ 5.1)))]
  stepper := some euler

/-- samples/test03_integrator.cpp:36-70 with steps of 1: the integrator rises to 4, is reset after 5 and rises again from 7 on. -/
example : triggered.watch true .plain [2] (.run 9 0 (1/1000) 1 :: steps 0 1 10)
    = some ([1, 2, 3, 4, 4, 4, 0, 0, 0, 1, 2].map (fun x => [some (.scalar x)])) := by decide +kernel

/-! ### samples/test04_mass_spring.cpp -/

/-- Signals: 0 x, 1 xd, 2 xdd. -/
def massSpring : Program where
  wires := [blk 1 (.integrator .double) [sc 2] (sc 1), blk 2 (.integrator .double) [sc 1] (sc 0), blk 3 (.gain .double (.scalar (-1))) [sc 0] (sc 2)]
  mem b := one (.scalar (if b = 1 then 0.1 else 0))
  stepper := some rk4

/-- samples/test04_mass_spring.cpp:57-70 with a step of 1/2: one step of the classical Runge-Kutta method for `x'' = -x`. -/
example : ∀ dbg st, massSpring.watch dbg st [0, 1] [.init 0, .run 9 (1/2) (1/1000) 1]
    = some [[some (.scalar 0), some (.scalar 0.1)], [some (.scalar (23/480)), some (.scalar (337/3840))]] := by
  intro dbg st; cases dbg <;> cases st <;> decide +kernel

/-! ### samples/test10_memory_with_bus.cpp -/

/-- The bus `MyBus` (lines 35-53) with signals `i`, … and the inner bus `j`. -/
def myBus (i j : SigId) : Entries := [(str "x0", sc i), (str "x1", sc (i + 1)), (str "Z", .bus j [(str "z3", sc (i + 3))]), (str "x2", sc (i + 2))]

theorem at1 (i j) : busAt (myBus i j) (str "x0") = .ok (sc i) := by rw [busAt]; rfl
theorem at2 (i j) : busAt (myBus i j) (str "x2") = .ok (sc (i+2)) := by rw [busAt]; rfl
theorem at3 (i j) : busAt (myBus i j) (str "Z.z3") = .ok (sc (i+3)) := by
  rw [busAt]
  have : splitDot (str "Z.z3") = (str "Z", some (str "z3")) := by decide
  rw [this]
  show busAt [(str "z3", sc (i + 3))] (str "z3") = _
  rw [busAt]; rfl
theorem visit_myBus (I O : Entries) (a0 : busAt I (str "x0") = .ok (sc 0)) (a2 : busAt I (str "x2") = .ok (sc 2)) (a3 : busAt I (str "Z.z3") = .ok (sc 3))
    (b0 : busAt O (str "x0") = .ok (sc 4)) (b2 : busAt O (str "x2") = .ok (sc 6)) (b3 : busAt O (str "Z.z3") = .ok (sc 7)) :
    visitBus (K := ℚ) [str "x1"] I O memoryBuilder [] (myBus 0 10) ([], [(str "Z.z3", .scalar 1)]) =
      .ok ([⟨str "x0", .double, 0, 4, some (.scalar 0)⟩, ⟨str "Z.z3", .double, 3, 7, some (.scalar 1)⟩, ⟨str "x2", .double, 2, 6, some (.scalar 0)⟩], []) := by
  have h0 : (str "x0") ∉ [str "x1"] := by decide
  have h1 : (str "x1") ∈ [str "x1"] := by decide
  have h2 : (str "x2") ∉ [str "x1"] := by decide
  have h3 : (str "Z.z3") ∉ [str "x1"] := by decide
  have h4 : (str "Z.") ∉ [str "x1"] := by decide
  simp only [myBus, sc, visitBus, show [] ++ str "x0" = str "x0" from rfl, show [] ++ str "x1" = str "x1" from rfl, show [] ++ str "x2" = str "x2" from rfl,
    show [] ++ str "Z" ++ [46] = str "Z." from rfl, show str "Z." ++ str "z3" = str "Z.z3" from rfl, if_neg h0, if_pos h1, if_neg h2, if_neg h3, if_neg h4,
    a0, a2, a3, b0, b2, b3]
  decide +kernel

/-- samples/test10_memory_with_bus.cpp:62-68: three memories, that of `Z.z3` starts with 1, none for `x1`. -/
example : (busMemory (K := ℚ) true [str "x1"] [(str "Z.z3", .scalar 1)] (myBus 0 10) (myBus 4 11))
    = .ok [⟨str "x0", .double, 0, 4, some (.scalar 0)⟩, ⟨str "Z.z3", .double, 3, 7, some (.scalar 1)⟩, ⟨str "x2", .double, 2, 6, some (.scalar 0)⟩] := by
  unfold busMemory
  rw [if_neg (by decide), visit_myBus _ _ (at1 0 10) (at2 0 10) (at3 0 10) (at1 4 11) (at2 4 11) (at3 4 11)]
  rfl

/-! ### samples/tut01_mass_spring_damper.cpp -/

/-- Signals: 0 F, 1 F/m, 2 s1, 3 xdd, 4 xd, 5 x, 6 kx/m, 7 cxd/m. -/
def damper : Program where
  wires :=
    [blk 1 (.source .double (fun t => .ok (.scalar (if t < 1 then 0 else 1)))) [] (sc 0), blk 2 (.gain .double (.scalar 4)) [sc 0] (sc 1),
     blk 3 (.subtract .double) [sc 1, sc 7] (sc 2), blk 4 (.subtract .double) [sc 2, sc 6] (sc 3), blk 5 (.integrator .double) [sc 3] (sc 4),
     blk 6 (.integrator .double) [sc 4] (sc 5), blk 7 (.gain .double (.scalar 1.2)) [sc 4] (sc 7), blk 8 (.gain .double (.scalar 2.8)) [sc 5] (sc 6)]
  stepper := some rk4

/-- samples/tut01_mass_spring_damper.cpp:74-78 with steps of 1: nothing moves before the force sets in; the last stage of the first step sees it. -/
example : ∀ dbg st, damper.watch dbg st [5, 4] (.run 9 0 (1/1000) 1 :: steps 0 (1/2) 2)
    = some [[some (.scalar 0), some (.scalar 0)], [some (.scalar 0), some (.scalar 0)], [some (.scalar 0), some (.scalar (1/3))]] := by
  intro dbg st; cases dbg <;> cases st <;> decide +kernel

end Pooya.Tests
