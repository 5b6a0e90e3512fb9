import Verif.Spec.Text
import Verif.Model.Extended

/-! Reading texts of infinities and not-a-numbers. -/

namespace Pooya.Reading

/-- What programs that read numbers accept: numbers, `inf` and `nan`, with or without a minus. -/
def readAny (s : Str) : Option (Ext ℚ) :=
  if s = str "inf" then some (.inf true)
  else if s = str "-inf" then some (.inf false)
  else if s = str "nan" ∨ s = str "-nan" then some .nan
  else (readNum s).map .num

/-- A cell shows a value: reading it gives the number up to half a unit in the sixth digit, and numbers with at most six digits, infinities and not-a-numbers themselves. -/
def Displays (cell : Str) : Ext ℚ → Prop
  | .num x => ∃ y, readAny cell = some (.num y) ∧ |y - x| ≤ 5 / 10 ^ 6 * |x| ∧ (SixDigits x → y = x)
  | e => readAny cell = some e

end Pooya.Reading
