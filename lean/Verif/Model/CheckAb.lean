import Verif.Model.Py
import Mathlib.Data.Real.Archimedean

/-!
# Model of `check_ab` (empymod/utils.py 151-213)
-/

namespace Verif.Utils
open Verif.Py

/-- What a user may pass as `ab`: an integer, a (finite) float, or something `int()` rejects
with a TypeError.  Strings (for which `int()` may raise ValueError) are not modelled. -/
inductive AbArg where
  | int (n : ℤ)
  | float (x : ℝ)
  | other

/-- `int(ab)` (utils.py 176-180): floats are truncated towards zero. -/
noncomputable def toInt : AbArg → Except PyErr ℤ
  | .int n => .ok n
  | .float x => .ok (if 0 ≤ x then ⌊x⌋ else ⌈x⌉)
  | .other => .error .typeError

/-- `pab` (utils.py 184-186). -/
def pab : List ℤ := [11, 12, 13, 14, 15, 16, 21, 22, 23, 24, 25, 26,
  31, 32, 33, 34, 35, 36, 41, 42, 43, 44, 45, 46,
  51, 52, 53, 54, 55, 56, 61, 62, 63, 64, 65, 66]

/-- `check_ab` on an integer (utils.py 187-213): `(ab_calc, msrc, mrec)`.  Printing is modelled
in `Verif.Model.Verb`. `Int.fmod`/`Int.fdiv` are Python's `%` and `//`. -/
def checkAbInt (ab : ℤ) : Except PyErr (ℕ × Bool × Bool) :=
  if ab ∉ pab then .error .valueError
  else
    let msrc := decide (Int.fmod ab 10 > 3)
    let mrec := decide (Int.fdiv ab 10 > 3)
    let ab_calc :=
      if mrec then
        if msrc then ab - 33 else Int.fmod ab 10 * 10 + Int.fdiv ab 10
      else ab
    .ok (ab_calc.toNat, msrc, mrec)

/-- `check_ab` (utils.py 151-213). -/
noncomputable def checkAb (ab : AbArg) : Except PyErr (ℕ × Bool × Bool) :=
  (toInt ab).bind checkAbInt

end Verif.Utils
