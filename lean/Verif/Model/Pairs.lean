import Verif.Model.Fdesign
import Verif.Model.Fullspace
import Mathlib.Analysis.SpecialFunctions.Trigonometric.Basic

/-!
# Model of the transform pairs of empymod/scripts/fdesign.py

Lines 860-1164.  Exact arithmetic; `np.sqrt` of complex numbers is a parameter (`IsSqrt`), `scipy.constants.mu_0` too.
-/

namespace Verif.Fdesign

/-- `Ghosh(name, lhs, rhs)` (fdesign.py 860-871). -/
def ghosh (name : String) (lhs rhs : ℝ → ℂ) : Pair := ⟨name.toList, lhs, fun _ => 0, .fn rhs⟩

/-- The same for real functions. -/
noncomputable def ghoshR (name : String) (lhs rhs : ℝ → ℝ) : Pair :=
  ghosh name (fun x => (lhs x : ℂ)) (fun b => (rhs b : ℂ))

/-- `j0_1` (fdesign.py 876-886). -/
noncomputable def j0_1 (a : ℝ) : Pair :=
  ghoshR "j0" (fun x => x * Real.exp (-a * x ^ 2)) (fun b => Real.exp (-b ^ 2 / (4 * a)) / (2 * a))

/-- `j0_2` (fdesign.py 889-899). -/
noncomputable def j0_2 (a : ℝ) : Pair :=
  ghoshR "j0" (fun x => Real.exp (-a * x)) (fun b => 1 / Real.sqrt (b ^ 2 + a ^ 2))

/-- `j0_3` (fdesign.py 902-912). -/
noncomputable def j0_3 (a : ℝ) : Pair :=
  ghoshR "j0" (fun x => x * Real.exp (-a * x)) (fun b => a / (b ^ 2 + a ^ 2) ^ (3 / 2 : ℝ))

/-- `gam` of the pairs 4 and 5 (fdesign.py 929, 957, 1026, 1054). -/
noncomputable def gamOf (sqrt : ℂ → ℂ) (mu0 f rho : ℝ) : ℂ := sqrt (2 * Complex.I * Real.pi * mu0 * f / rho)

/-- `beta` of the pairs 4 and 5 (fdesign.py 932, 960, 1029, 1057). -/
noncomputable def betaOf (sqrt : ℂ → ℂ) (gam : ℂ) (x : ℝ) : ℂ := sqrt ((x : ℂ) ^ 2 + gam ^ 2)

/-- `j0_4` (fdesign.py 915-940). -/
noncomputable def j0_4 (sqrt : ℂ → ℂ) (mu0 f rho z : ℝ) : Pair :=
  let gam := gamOf sqrt mu0 f rho
  ghosh "j0" (fun x => x * Complex.exp (-betaOf sqrt gam x * (|z| : ℝ)) / betaOf sqrt gam x)
    (fun b => let R : ℂ := (Real.sqrt (b ^ 2 + z ^ 2) : ℝ)
      Complex.exp (-gam * R) / R)

/-- `j0_5` (fdesign.py 943-968). -/
noncomputable def j0_5 (sqrt : ℂ → ℂ) (mu0 f rho z : ℝ) : Pair :=
  let gam := gamOf sqrt mu0 f rho
  ghosh "j0" (fun x => x * Complex.exp (-betaOf sqrt gam x * (|z| : ℝ)))
    (fun b => let R : ℂ := (Real.sqrt (b ^ 2 + z ^ 2) : ℝ)
      (|z| : ℝ) * (gam * R + 1) * Complex.exp (-gam * R) / R ^ 3)

/-- `j1_1` (fdesign.py 973-983). -/
noncomputable def j1_1 (a : ℝ) : Pair :=
  ghoshR "j1" (fun x => x ^ 2 * Real.exp (-a * x ^ 2)) (fun b => b / (4 * a ^ 2) * Real.exp (-b ^ 2 / (4 * a)))

/-- `j1_2` (fdesign.py 986-996). -/
noncomputable def j1_2 (a : ℝ) : Pair :=
  ghoshR "j1" (fun x => Real.exp (-a * x))
    (fun b => (Real.sqrt (b ^ 2 + a ^ 2) - a) / (b * Real.sqrt (b ^ 2 + a ^ 2)))

/-- `j1_3` (fdesign.py 999-1009). -/
noncomputable def j1_3 (a : ℝ) : Pair :=
  ghoshR "j1" (fun x => x * Real.exp (-a * x)) (fun b => b / (b ^ 2 + a ^ 2) ^ (3 / 2 : ℝ))

/-- `j1_4` (fdesign.py 1012-1037). -/
noncomputable def j1_4 (sqrt : ℂ → ℂ) (mu0 f rho z : ℝ) : Pair :=
  let gam := gamOf sqrt mu0 f rho
  ghosh "j1" (fun x => (x : ℂ) ^ 2 * Complex.exp (-betaOf sqrt gam x * (|z| : ℝ)) / betaOf sqrt gam x)
    (fun b => let R : ℂ := (Real.sqrt (b ^ 2 + z ^ 2) : ℝ)
      b * (gam * R + 1) * Complex.exp (-gam * R) / R ^ 3)

/-- `j1_5` (fdesign.py 1040-1065). -/
noncomputable def j1_5 (sqrt : ℂ → ℂ) (mu0 f rho z : ℝ) : Pair :=
  let gam := gamOf sqrt mu0 f rho
  ghosh "j1" (fun x => (x : ℂ) ^ 2 * Complex.exp (-betaOf sqrt gam x * (|z| : ℝ)))
    (fun b => let R : ℂ := (Real.sqrt (b ^ 2 + z ^ 2) : ℝ)
      (|z| : ℝ) * b * (gam ^ 2 * R ^ 2 + 3 * gam * R + 3) * Complex.exp (-gam * R) / R ^ 5)

/-- The choice by `inverse` in all sine and cosine pairs (fdesign.py 1079-1082 and the same in the others). -/
noncomputable def swapIf (name : String) (inverse : Bool) (lhs rhs : ℝ → ℝ) : Pair :=
  if inverse then ghoshR name rhs lhs else ghoshR name lhs rhs

/-- `sin_1` (fdesign.py 1070-1083). -/
noncomputable def sin_1 (a : ℝ) (inverse : Bool) : Pair :=
  swapIf "sin" inverse (fun x => x * Real.exp (-a ^ 2 * x ^ 2))
    (fun b => Real.sqrt Real.pi * b * Real.exp (-b ^ 2 / (4 * a ^ 2)) / (4 * a ^ 3))

/-- `sin_2` (fdesign.py 1086-1099). -/
noncomputable def sin_2 (a : ℝ) (inverse : Bool) : Pair :=
  swapIf "sin" inverse (fun x => Real.exp (-a * x)) (fun b => b / (b ^ 2 + a ^ 2))

/-- `sin_3` (fdesign.py 1102-1115). -/
noncomputable def sin_3 (a : ℝ) (inverse : Bool) : Pair :=
  swapIf "sin" inverse (fun x => x / (a ^ 2 + x ^ 2)) (fun b => Real.pi * Real.exp (-a * b) / 2)

/-- `cos_1` (fdesign.py 1120-1133). -/
noncomputable def cos_1 (a : ℝ) (inverse : Bool) : Pair :=
  swapIf "cos" inverse (fun x => Real.exp (-a ^ 2 * x ^ 2))
    (fun b => Real.sqrt Real.pi * Real.exp (-b ^ 2 / (4 * a ^ 2)) / (2 * a))

/-- `cos_2` (fdesign.py 1136-1149). -/
noncomputable def cos_2 (a : ℝ) (inverse : Bool) : Pair :=
  swapIf "cos" inverse (fun x => Real.exp (-a * x)) (fun b => a / (b ^ 2 + a ^ 2))

/-- `cos_3` (fdesign.py 1152-1164). -/
noncomputable def cos_3 (a : ℝ) (inverse : Bool) : Pair :=
  swapIf "cos" inverse (fun x => 1 / (a ^ 2 + x ^ 2)) (fun b => Real.pi * Real.exp (-a * b) / (2 * a))

end Verif.Fdesign
