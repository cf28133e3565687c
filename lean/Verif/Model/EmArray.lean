import Mathlib.Analysis.SpecialFunctions.Complex.Arg

/-!
# Model of `EMArray` (empymod/utils.py 77-146)

An array is the list of its rows along the last axis, the one along which `np.unwrap` works.  Exact arithmetic;
`np.angle` is the argument in `(-π, π]` (no signed zeros).
-/

namespace Verif.EmArray
open Real

/-- `EMArray.amp` (utils.py 106-108). -/
noncomputable def amp (rows : List (List ℂ)) : List (List ℝ) := rows.map (·.map fun z => ‖z‖)

/-- `np.mod`. -/
noncomputable def pyMod (x y : ℝ) : ℝ := x - y * ⌊x / y⌋

/-- `ddmod` in `np.unwrap`. -/
noncomputable def ddmod (dd : ℝ) : ℝ :=
  let m := pyMod (dd + π) (2 * π) - π
  if m = -π ∧ 0 < dd then π else m

/-- `ph_correct` in `np.unwrap`. -/
noncomputable def correct (dd : ℝ) : ℝ := if |dd| < π then 0 else ddmod dd - dd

/-- `p[1:] + ph_correct.cumsum()`: previous phase, sum of the corrections so far, remaining phases. -/
noncomputable def unwrapGo : ℝ → ℝ → List ℝ → List ℝ
  | _, _, [] => []
  | prev, acc, p :: l => (p + (acc + correct (p - prev))) :: unwrapGo p (acc + correct (p - prev)) l

/-- `np.unwrap` of a row. -/
noncomputable def unwrapRow : List ℝ → List ℝ
  | [] => []
  | p :: l => p :: unwrapGo p 0 l

/-- `EMArray.pha` (utils.py 110-146). -/
noncomputable def pha (deg unwrap lag : Bool) (rows : List (List ℂ)) : List (List ℝ) :=
  let angle : List (List ℝ) :=
    if lag then rows.map (·.map Complex.arg) else rows.map (·.map fun z => Complex.arg ((starRingEnd ℂ) z))
  let angle := if unwrap ∧ 1 < (rows.map List.length).sum then angle.map unwrapRow else angle
  if deg then angle.map (·.map fun x => x * (180 / π)) else angle

end Verif.EmArray
