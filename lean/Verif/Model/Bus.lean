import Verif.Model.Name
import Verif.Model.Signal

/- Model of src/signal/bus.hpp and of the typed handles of src/signal/signal.hpp. -/

namespace Pooya

/-- A signal object as seen by the code that inspects its structure: a value signal with its
identity and dynamic type, or a `BusImpl` (src/signal/bus.hpp:41-144) with its identity and its
`_signals` vector (line 141). -/
inductive Signal where
  | val (id : SigId) (ty : Ty)
  | bus (id : SigId) (entries : List (Str × Signal))

/-- `BusImpl::_signals`. -/
abbrev Entries := List (Str × Signal)

namespace Signal

/-- Object identity. -/
def id : Signal → SigId
  | val i _ => i
  | bus i _ => i

/-- `dynamic_cast<BusImpl*>` succeeds. -/
def isBus : Signal → Bool
  | val _ _ => false
  | bus _ _ => true

end Signal

/-- The typed handles `SignalT<T>` (src/signal/signal.hpp:66-105). -/
inductive HandleTy where
  | scalar | int | bool | array | bus
deriving DecidableEq, Repr

/-- `dynamic_cast<typename Types<T>::SignalImpl*>(sig)` is non-null (src/signal/signal.hpp:50,
src/signal/trait.hpp).  The array handle accepts any size. -/
def HandleTy.accepts : HandleTy → Signal → Bool
  | .scalar, .val _ .scalar => true
  | .int, .val _ .int => true
  | .bool, .val _ .bool => true
  | .array, .val _ (.array _) => true
  | .bus, .bus _ _ => true
  | _, _ => false

/-- A typed handle after construction: what it points to. -/
structure Handle where
  ty : HandleTy
  target : Signal

/-- `SignalT(SignalImpl&)` / `SignalT(const Signal&)` (src/signal/signal.hpp:73-83). -/
def mkHandle (ty : HandleTy) (s : Signal) : Except Err Handle :=
  if ty.accepts s then .ok ⟨ty, s⟩ else .error (.exc .invalidType)

/-- `SignalT::reset` (src/signal/signal.hpp:85-90).  `dynamic_pointer_cast` yields null for a wrong
type and `fail_if_invalid_signal_type` throws on null; the handle is then left with a null `_ptr`
and its old `_typed_ptr`, which is the `none` of the result. -/
def resetHandle (h : Handle) (s : Signal) : Except Err Unit × Option Handle :=
  if h.ty.accepts s then (.ok (), some ⟨h.ty, s⟩) else (.error (.exc .invalidType), none)

/-- `FloatSignalImplT<T>::set_deriv_signal` (src/signal/float_signal.hpp:39-44) called on a state
signal of type `sty`; `d` is the derivative signal.  The second component is the new `_deriv_sig`
(`old` if untouched): the size is verified *after* the assignment. -/
def setDeriv (sty : Ty) (old : Option SigId) (d : Signal) : Except Err Unit × Option SigId :=
  match sty, d with
  | .scalar, .val i .scalar => (.ok (), some i)
  | .array n, .val i (.array m) =>
      if n = m then (.ok (), some i) else (.error (.exc .sizeMismatch), some i)
  | _, _ => (.error (.exc .invalidType), old)

/-- `std::string_view::find(".")` and the two `substr` calls (src/signal/bus.hpp:100-101,113):
the part before the first '.' and, if there is one, the part after it. -/
def splitDot : Str → Str × Option Str
  | [] => ([], none)
  | c :: cs => if c = 46 then ([], some cs) else
      let r := splitDot cs
      (c :: r.1, r.2)

theorem splitDot_lt {l h r : Str} (e : splitDot l = (h, some r)) : r.length < l.length := by
  induction l generalizing h with
  | nil => simp [splitDot] at e
  | cons c cs ih =>
    simp only [splitDot] at e
    split at e
    · simp at e; simp [e.2]
    · simp at e
      have := @ih (splitDot cs).1 (by rw [← e.2])
      simp; omega

/-- `std::find_if` over `_signals` comparing labels (src/signal/bus.hpp:102-103). -/
def findLabel (es : Entries) (l : Str) : Option Signal :=
  match es with
  | [] => none
  | (k, s) :: rest => if k = l then some s else findLabel rest l

/-- `BusImpl::at(std::string_view)` (src/signal/bus.hpp:96-114). -/
def busAt (es : Entries) (label : Str) : Except Err Signal :=
  match _h : splitDot label with
  | (l, none) =>
    match findLabel es l with
    | none => .error (.exc .labelNotFound)
    | some s => .ok s
  | (l, some rest) =>
    match findLabel es l with
    | none => .error (.exc .labelNotFound)
    | some (.bus _ es') => busAt es' rest
    | some (.val _ _) => .error (.exc .invalidType)
termination_by label.length
decreasing_by exact splitDot_lt _h

/-- `BusImpl::try_at` (src/signal/bus.hpp:116-136).  The pointer tested at line 134 is the address of
an object and never null; the `static_cast` of a value signal to `BusImpl*` and the member call
through it are undefined behaviour. -/
def busTryAt (es : Entries) (label : Str) : Except Err (Option Signal) :=
  match splitDot label with
  | (l, none) => .ok (findLabel es l)
  | (l, some rest) =>
    match findLabel es l with
    | none => .ok none
    | some (.bus _ es') => (busAt es' rest).map some
    | some (.val _ _) => .error (.ub .badCast)

/-- `BusImpl::at(std::size_t)` (src/signal/bus.hpp:83-87): `vector::at`. -/
def busAtIdx (es : Entries) (i : Nat) : Except Err Signal :=
  match es[i]? with
  | none => .error (.exc .outOfRange)
  | some (_, s) => .ok s

/-- `BusImpl::operator[](std::size_t)` (src/signal/bus.hpp:89-94). -/
def busIdx (dbg : Bool) (es : Entries) (i : Nat) : Except Err Signal :=
  match es[i]? with
  | none => if dbg then .error (.exc .debugVerify) else .error (.ub .outOfBounds)
  | some (_, s) => .ok s

/-- Decimal digits of `std::to_string(std::size_t)`. -/
def decimal (n : Nat) : Str := (Nat.toDigits 10 n).map (fun c => UInt8.ofNat c.toNat)

/-- `BusImpl::_make_auto_label` (src/signal/bus.hpp:143). -/
def autoLabel (k : Nat) : Str := str "sig" ++ decimal k

/-- Names of all signal objects (`NamedObject::_name` of every `SignalImpl`). -/
abbrev Names := SigId → Str

/-- Loop body of the `BusImpl` constructor (src/signal/bus.hpp:60-62 and 66-68): sanitise the
label, rename the signal if it has no name, store the pair. -/
def busPut (nm : Names) (label : Str) (s : Signal) : Names × (Str × Signal) :=
  let l := emend label
  (if nm s.id = [] then upd nm s.id (emend l) else nm, (l, s))

/-- `BusImpl` constructor for label/signal pairs (src/signal/bus.hpp:48-71, first branch). -/
def mkBus (nm : Names) : List (Str × Signal) → Names × Entries
  | [] => (nm, [])
  | (l, s) :: rest =>
    let r := busPut nm l s
    let r' := mkBus r.1 rest
    (r'.1, r.2 :: r'.2)

/-- `BusImpl` constructor for plain signals (src/signal/bus.hpp:48-71, second branch), counter `k`. -/
def mkBusAuto (nm : Names) (k : Nat) : List Signal → Names × Entries
  | [] => (nm, [])
  | s :: rest =>
    let r := busPut nm (autoLabel k) s
    let r' := mkBusAuto r.1 (k + 1) rest
    (r'.1, r.2 :: r'.2)

end Pooya
