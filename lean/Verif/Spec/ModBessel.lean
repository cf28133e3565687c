import Mathlib.MeasureTheory.Integral.IntervalIntegral.Basic
import Mathlib.MeasureTheory.Integral.Bochner.Set
import Mathlib.Analysis.SpecialFunctions.Trigonometric.Basic

/-!
# Modified Bessel functions

By their integral representations (Abramowitz and Stegun 9.6.19 and 9.6.24).  `besselI` holds for all
arguments, `besselK` for arguments with positive real part.
-/

namespace Verif.Spec

/-- `I_n(z) = 1/(2π) ∫₀^{2π} exp(z cos θ) cos(n θ) dθ`. -/
noncomputable def besselI (n : ℕ) (z : ℂ) : ℂ :=
  1 / (2 * (Real.pi : ℂ)) *
    ∫ θ in (0 : ℝ)..(2 * Real.pi), Complex.exp (z * Real.cos θ) * (Real.cos (n * θ) : ℂ)

/-- `K_n(z) = ∫₀^∞ exp(-z cosh u) cosh(n u) du`, for `Re z > 0`. -/
noncomputable def besselK (n : ℕ) (z : ℂ) : ℂ :=
  ∫ u in Set.Ioi (0 : ℝ), Complex.exp (-z * Real.cosh u) * (Real.cosh (n * u) : ℂ)

end Verif.Spec
