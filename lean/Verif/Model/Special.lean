import Verif.Model.Text
import Verif.Model.Extended

/-! The text of the file `History::export_csv` writes, with infinities and not-a-numbers. -/

namespace Pooya

/-- `ofs << x` for a `double` (src/solver/history.cpp:182, 192, 198), which is `printf("%g")`.  The sign of a zero and of a not-a-number, which `Ext` does not
know, is written. -/
inductive Writes : Ext ℚ → Str → Prop
  | num (x : ℚ) : Writes (.num x) (showNum x)
  | minusZero : Writes (.num 0) (str "-0")
  | inf : Writes (.inf true) (str "inf")
  | minusInf : Writes (.inf false) (str "-inf")
  | nan : Writes .nan (str "nan")
  | minusNan : Writes .nan (str "-nan")

variable {K : Type}

/-- A number in a line; for an indeterminate number anything may be written. -/
def CellText (writes : K → Str → Prop) : Option K → Str → Prop
  | none, _ => True
  | some x, s => writes x s

/-- `s` may be what `History::export_csv` writes into the file (src/solver/history.cpp:153-203): fields separated by commas (44), lines ended by line feeds (10). -/
def Csv.Texts (writes : K → Str → Prop) (name : SigId → NamedObject) (c : Csv K) (s : Str) : Prop :=
  ∃ rows : List (Str × List Str), List.Forall₂ (fun l r => CellText writes l.1 r.1 ∧ List.Forall₂ (CellText writes) l.2 r.2) c.lines rows ∧
    s = str "time" ++ c.header.flatMap (fun f => 44 :: f.text name) ++ [10] ++ rows.flatMap (fun r => r.1 ++ r.2.flatMap (fun v => 44 :: v) ++ [10])

end Pooya
