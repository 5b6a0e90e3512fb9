import Verif.Model.Bus

/-! Specification of dotted paths in a bus, independent of the lookup code. -/

namespace Pooya

/-- `segs` are the dot-separated components of `label`. -/
structure IsPath (label : Str) (segs : List Str) : Prop where
  ne : segs ≠ []
  noDot : ∀ l ∈ segs, (46 : UInt8) ∉ l
  join : label = List.intercalate [46] segs

/-- `s` is the first member of the bus labelled `l`. -/
def FirstWith (es : Entries) (l : Str) (s : Signal) : Prop :=
  ∃ pre post, es = pre ++ (l, s) :: post ∧ ∀ p ∈ pre, p.1 ≠ l

/-- Following the labels one by one leads to `s`. -/
inductive Reaches : Entries → List Str → Signal → Prop
  | last {es l s} : FirstWith es l s → Reaches es [l] s
  | step {es l i es' ls s} : FirstWith es l (.bus i es') → Reaches es' ls s → Reaches es (l :: ls) s

/-- Following the labels fails, with the exception to be thrown. -/
inductive Blocked : Entries → List Str → Exc → Prop
  | missing {es l ls} : (∀ p ∈ es, p.1 ≠ l) → Blocked es (l :: ls) .labelNotFound
  | notBus {es l i t ls} : FirstWith es l (.val i t) → ls ≠ [] → Blocked es (l :: ls) .invalidType
  | deeper {es l i es' ls e} : FirstWith es l (.bus i es') → ls ≠ [] → Blocked es' ls e →
      Blocked es (l :: ls) e

end Pooya
