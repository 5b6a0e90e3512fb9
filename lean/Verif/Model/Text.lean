import Verif.Model.History
import Verif.Model.Name
import Verif.Model.Rounded

/-! The text of the file `History::export_csv` writes. -/

namespace Pooya

/-- The decimal digits of a number, at least `k`, the first one first. -/
def padded (k n : Nat) : Str :=
  if n < 10 then List.replicate (k - 1) 48 ++ [UInt8.ofNat (48 + n)] else padded (k - 1) (n / 10) ++ [UInt8.ofNat (48 + n % 10)]
termination_by n
decreasing_by omega

/-- Without the zeros at the end. -/
def dropZeros (s : Str) : Str := (s.reverse.dropWhile (· == 48)).reverse

/-- Digits after the point, if any are left; 46 is `.`. -/
def pointed (fs : Str) : Str := if dropZeros fs = [] then [] else 46 :: dropZeros fs

/-- A positive number rounded to six decimal digits, to nearest, ties to even: `(X, n)` stands for `n * 10 ^ (X - 5)`, and `n` has six digits. -/
def scientific (x : ℚ) : Int × Nat :=
  let e := Int.log 10 x
  let n := (nearest (x / 10 ^ (e - 5))).toNat
  if n = 1000000 then (e + 1, 100000) else (e, n)

/-- A positive number as written by `operator<<(double)` with the default settings of a stream, which is `printf("%g")`: six significant digits, without zeros at the
end; with exponent if it is less than -4 or more than 5. -/
def showPos (x : ℚ) : Str :=
  let X := (scientific x).1
  let ds := padded 6 (scientific x).2
  if X < -4 ∨ 5 < X then ds.take 1 ++ pointed (ds.drop 1) ++ [101, if X < 0 then 45 else 43] ++ padded 2 X.natAbs
  else if X < 0 then 48 :: pointed (List.replicate (X.natAbs - 1) 48 ++ ds)
  else ds.take (X.toNat + 1) ++ pointed (ds.drop (X.toNat + 1))

/-- `ofs << x` (src/solver/history.cpp:182, 192, 198); no precision is set.  For infinities, not-a-numbers and the sign of zero see `Writes`. -/
def showNum (x : ℚ) : Str := if x = 0 then [48] else if x < 0 then 45 :: showPos (-x) else showPos x

variable {K : Type}

/-- A header field: `name` or `name[k]` (src/solver/history.cpp:166 and 172). -/
def Field.text (name : SigId → NamedObject) (f : Field) : Str :=
  (name f.sig).nm.name ++ match f.comp with
    | none => []
    | some k => 91 :: padded 1 k ++ [93]

/-- A number in a line; `other` is written for an indeterminate number. -/
def showCell (shown : K → Str) (other : Str) : Option K → Str
  | none => other
  | some x => shown x

/-- What `History::export_csv` writes into the file (src/solver/history.cpp:153-203): fields separated by commas (44), lines ended by line feeds (10). -/
def Csv.text (shown : K → Str) (other : Str) (name : SigId → NamedObject) (c : Csv K) : Str :=
  str "time" ++ c.header.flatMap (fun f => 44 :: f.text name) ++ [10] ++
    c.lines.flatMap (fun l => showCell shown other l.1 ++ l.2.flatMap (fun v => 44 :: showCell shown other v) ++ [10])

end Pooya
