import Verif.Model.History
import Mathlib.Data.Rat.Cast.Order
import Mathlib.Algebra.Order.Field.Rat

/-! Reading a file of numbers separated by commas. -/

namespace Pooya.Reading

/-- The pieces of a text between separators. -/
def pieces (c : UInt8) : Str → List Str
  | [] => [[]]
  | a :: s =>
    if a = c then [] :: pieces c s
    else match pieces c s with
      | [] => [[a]]
      | p :: ps => (a :: p) :: ps

/-- The fields of the lines of a file; each line ends with a line feed. -/
def table (s : Str) : List (List Str) := (pieces 10 s).dropLast.map (pieces 44)

def IsDigit (c : UInt8) : Prop := 48 ≤ c ∧ c ≤ 57

instance : DecidablePred IsDigit := fun c => inferInstanceAs (Decidable (48 ≤ c ∧ c ≤ 57))

/-- The value of decimal digits. -/
def value (s : Str) : Nat := s.foldl (fun v c => 10 * v + (c.toNat - 48)) 0

/-- What is before and after the first `c`. -/
def cut (c : UInt8) : Str → Str × Option Str
  | [] => ([], none)
  | a :: s => if a = c then ([], some s) else (a :: (cut c s).1, (cut c s).2)

/-- Digits, perhaps with a point. -/
def readDecimal (s : Str) : Option ℚ :=
  let (a, f) := cut 46 s
  let fs := f.getD []
  if a ≠ [] ∧ (∀ c ∈ a ++ fs, IsDigit c) then some ((value (a ++ fs) : ℚ) / 10 ^ fs.length) else none

/-- An exponent: a sign (45 is `-`, 43 is `+`) and digits. -/
def readExponent : Str → Option ℤ
  | c :: s => if s ≠ [] ∧ ∀ d ∈ s, IsDigit d then if c = 45 then some (-(value s : ℤ)) else if c = 43 then some (value s : ℤ) else none else none
  | [] => none

/-- A number without sign, perhaps with an exponent after `e` (101). -/
def readPos (s : Str) : Option ℚ :=
  match cut 101 s with
  | (m, none) => readDecimal m
  | (m, some e) => do
    let x ← readDecimal m
    let k ← readExponent e
    some (x * 10 ^ k)

/-- A number. -/
def readNum : Str → Option ℚ
  | 45 :: s => (readPos s).map (- ·)
  | s => readPos s

/-- A number with at most six decimal digits before a power of ten. -/
def SixDigits (x : ℚ) : Prop := ∃ (m : ℤ) (k : ℤ), |m| < 10 ^ 6 ∧ x = m * 10 ^ k

/-- A cell shows a number: reading it gives the number up to half a unit in the sixth digit, and a number with at most six digits itself. -/
def Prints (cell : Str) (x : ℚ) : Prop :=
  ∃ y, readNum cell = some y ∧ |y - x| ≤ 5 / 10 ^ 6 * |x| ∧ (SixDigits x → y = x)

/-- The headings of a signal with name `n`: `n`, or `n[0]`, `n[1]`, … for an array. -/
def Headings (n : Str) : Ty → List Str → Prop
  | .array m, l => l.length = m ∧ ∀ c, c < m → ∃ ds, (∀ d ∈ ds, IsDigit d) ∧ value ds = c ∧ (ds.head? = some 48 → ds = [48]) ∧
      l[c]? = some (n ++ 91 :: ds ++ [93])
  | _, l => l = [n]

end Pooya.Reading
