import Verif.Model.Build
import Verif.Model.BusBlocks
import Verif.Spec.BusPath
import Mathlib.Data.List.Forall2

/-! Specification of which calls of `connect` are accepted, and what they make of the object. -/

namespace Pooya

variable {K : Type}

/-- The signal is the value signal `s`, of the C++ value type `ty`. -/
def Signal.IsOf (x : Signal) (ty : VTy) (s : SigId) : Prop := ∃ t, x = .val s t ∧ t.vty = ty

/-- The bus has one entry, the value signal `s` of type `ty`. -/
def Entries.Only (es : Entries) (ty : VTy) (s : SigId) : Prop := ∃ l x, es = [(l, x)] ∧ x.IsOf ty s

/-- The first entry labelled `l` is the value signal `s` of type `ty`. -/
def Entries.Named (es : Entries) (l : Str) (ty : VTy) (s : SigId) : Prop := ∃ x, FirstWith es l x ∧ x.IsOf ty s

/-- The number of entries is the one the class asks for, if it asks for one. -/
def Entries.Count (es : Entries) (n : Option Nat) : Prop := ∀ m, n = some m → es.length = m

/-- The key leads to the value signal `s`: by position, or by labels separated by dots. -/
def Key.Leads (es : Entries) : Key → SigId → Prop
  | .idx i, s => ∃ l t, es[i]? = some (l, .val s t)
  | .label l, s => ∃ segs t, IsPath l segs ∧ Reaches es segs (.val s t)

/-- `connect(ibus, obus)` is accepted, and then the object is a leaf of the kind given last.  What debug builds alone ask for is asked for if `dbg`. -/
inductive Make.Becomes (dbg : Bool) (ibus obus : Entries) : Make K → Kind K → Prop
  | const {ty v o} : ibus = [] → obus.Only ty o → Becomes dbg ibus obus (.const ty v) (.const v o)
  | source {ty f o} : obus.Only ty o → Becomes dbg ibus obus (.source ty f) (.source f o)
  | sources {n f ks os} : ibus = [] → obus.Count n → List.Forall₂ (Key.Leads obus) ks os →
      Becomes dbg ibus obus (.sources n f ks) (.sources f os)
  | gain {ty k x o} : ibus.Only ty x → obus.Only ty o → Becomes dbg ibus obus (.gain ty k) (.gain k x o)
  | add {ty v o} : obus.Only ty o → (dbg = true → ibus ≠ [] ∧ ∀ p ∈ ibus, ∃ s, p.2.IsOf ty s) →
      Becomes dbg ibus obus (.add ty v) (.add v (ibus.map (fun p => p.2.id)) o)
  | multiply {ty v o} : obus.Only ty o → (dbg = true → ibus ≠ [] ∧ ∀ p ∈ ibus, ∃ s, p.2.IsOf ty s) →
      Becomes dbg ibus obus (.multiply ty v) (.multiply v (ibus.map (fun p => p.2.id)) o)
  | subtract {ty l x l' y s s' o} : ibus = [(l, x), (l', y)] → x.IsOf ty s → y.IsOf ty s' → obus.Only ty o →
      Becomes dbg ibus obus (.subtract ty) (.subtract s s' o)
  | divide {ty l x l' y s s' o} : ibus = [(l, x), (l', y)] → x.IsOf ty s → y.IsOf ty s' → obus.Only ty o →
      Becomes dbg ibus obus (.divide ty) (.divide s s' o)
  | pipe {ty x o} : ibus.Only ty x → obus.Only ty o → Becomes dbg ibus obus (.pipe ty) (.pipe x o)
  | memory {ty x o} : ibus.Only ty x → obus.Only ty o → Becomes dbg ibus obus (.memory ty) (.memory x o)
  | delay {ty ls x d i o} : ibus.length = 3 → ibus.Named (str "in") ty x → ibus.Named (str "delay") .double d → ibus.Named (str "initial") ty i →
      obus.Only ty o → Becomes dbg ibus obus (.delay ty ls) (.delay ls x d i o)
  | derivative {ty x o} : ibus.Only ty x → obus.Only ty o → Becomes dbg ibus obus (.derivative ty) (.derivative x o)
  | integrator {ty l x l' o t} : ibus = [(l, .val x t)] → obus = [(l', .val o t)] → t.vty = ty → (ty = .double ∨ ty = .array) →
      Becomes dbg ibus obus (.integrator ty) (.integrator x o)
  | trigInt {ty l x q l' o t tr} : ibus = [(l, .val x t), q] → obus = [(l', .val o t)] → t.vty = ty → (ty = .double ∨ ty = .array) →
      ibus.Named (str "trigger") .bool tr → Becomes dbg ibus obus (.trigInt ty) (.trigInt x tr o)
  | siso {ty f x o} : ibus.Only ty x → obus.Only ty o → Becomes dbg ibus obus (.siso ty f) (.siso f x o)
  | so {ty n f ks is o} : ibus.Count n → obus.Only ty o → List.Forall₂ (Key.Leads ibus) ks is → Becomes dbg ibus obus (.so ty n f ks) (.so f is o)
  | func {n m f ks ks' is os} : ibus.Count n → obus.Count m → List.Forall₂ (Key.Leads ibus) ks is → List.Forall₂ (Key.Leads obus) ks' os →
      Becomes dbg ibus obus (.func n m f ks ks') (.func f is os)
  | custom {n m ks ks' c is os} : ibus.Count n → obus.Count m → List.Forall₂ (Key.Leads ibus) ks is → List.Forall₂ (Key.Leads obus) ks' os →
      Becomes dbg ibus obus (.custom n m ks ks' c) (.custom (c is os))

end Pooya
