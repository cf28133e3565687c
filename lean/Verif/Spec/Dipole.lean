import Mathlib.Analysis.SpecialFunctions.Exp
import Mathlib.Analysis.SpecialFunctions.Pow.Complex
import Mathlib.Analysis.SpecialFunctions.Trigonometric.Basic

/-!
# Specification: textbook fields of a dipole in a homogeneous medium

Directions are `1, 2, 3` for `x, y, z`.
-/

namespace Verif.Spec

/-- Component of the position. -/
def pos (x y z : ℝ) : ℕ → ℝ
  | 1 => x
  | 2 => y
  | _ => z

/-- `(e_b × r)_a`, the cross product of the direction of the source and the position. -/
def crossUnit (a b : ℕ) (x y z : ℝ) : ℝ :=
  match a, b with
  | 2, 1 => -z
  | 3, 1 => y
  | 1, 2 => z
  | 3, 2 => -x
  | 1, 3 => -y
  | 2, 3 => x
  | _, _ => 0

/-- Electric field `a` of an electric dipole `b` in an isotropic medium (magnetic field of a magnetic
dipole with the impedivity in place of the admittivity):
`e^{-γR}/(4πηR³) [(3 + 3γR + γ²R²) r_a r_b / R² - (1 + γR + γ²R²) δ_ab]`. -/
noncomputable def isoDirect (γ η : ℂ) (a b : ℕ) (x y z : ℝ) : ℂ :=
  let R : ℝ := Real.sqrt (x ^ 2 + y ^ 2 + z ^ 2)
  Complex.exp (-γ * R) / (4 * Real.pi * η * R ^ 3) *
    ((3 + 3 * γ * R + γ ^ 2 * R ^ 2) * (pos x y z a * pos x y z b) / R ^ 2 -
      (1 + γ * R + γ ^ 2 * R ^ 2) * (if a = b then 1 else 0))

/-- Magnetic field `a` of an electric dipole `b` in an isotropic medium:
`e^{-γR}(1 + γR)/(4πR³) (e_b × r)_a`. -/
noncomputable def isoCross (γ : ℂ) (a b : ℕ) (x y z : ℝ) : ℂ :=
  let R : ℝ := Real.sqrt (x ^ 2 + y ^ 2 + z ^ 2)
  Complex.exp (-γ * R) * (1 + γ * R) / (4 * Real.pi * R ^ 3) * crossUnit a b x y z

/-- The static field of a current dipole in a medium with horizontal conductivity `sH` and vertical
conductivity `sV`: second derivatives of the potential `1/(4π√(sH sV) R)`, `R² = x² + y² + (sH/sV) z²`. -/
noncomputable def staticDipole (sH sV R : ℂ) (a b : ℕ) (x y z : ℝ) : ℂ :=
  let w : ℕ → ℂ := fun a => if a = 3 then sH / sV else 1
  (3 * (w a * pos x y z a) * (w b * pos x y z b) / R ^ 5 - (if a = b then w a else 0) / R ^ 3) /
    (4 * Real.pi * (sH ^ (1 / 2 : ℂ) * sV ^ (1 / 2 : ℂ)))

end Verif.Spec
