import Mathlib.Analysis.Calculus.Deriv.Basic
import Mathlib.Analysis.Complex.Basic

/-!
# Specification: Maxwell's equations in space, away from the source

`∇×H = η E`, `∇×E = -ζ H` in a homogeneous medium with vertical axis of symmetry.
-/

namespace Verif.Spec

/-- A complex vector field in space. -/
structure Vec where
  x : ℝ → ℝ → ℝ → ℂ
  y : ℝ → ℝ → ℝ → ℂ
  z : ℝ → ℝ → ℝ → ℂ

/-- The partial derivatives exist at the point, and the curl is `(a, b, c)`. -/
def Vec.HasCurl (F : Vec) (x y z : ℝ) (a b c : ℂ) : Prop :=
  ∃ zy yz xz zx yx xy : ℂ,
    HasDerivAt (fun t => F.z x t z) zy y ∧ HasDerivAt (fun t => F.y x y t) yz z ∧
    HasDerivAt (fun t => F.x x y t) xz z ∧ HasDerivAt (fun t => F.z t y z) zx x ∧
    HasDerivAt (fun t => F.y t y z) yx x ∧ HasDerivAt (fun t => F.x x t z) xy y ∧
    zy - yz = a ∧ xz - zx = b ∧ yx - xy = c

/-- Maxwell's equations without sources at a point. -/
def MaxwellAt (etaH etaV zetaH zetaV : ℂ) (E H : Vec) (x y z : ℝ) : Prop :=
  H.HasCurl x y z (etaH * E.x x y z) (etaH * E.y x y z) (etaV * E.z x y z) ∧
  E.HasCurl x y z (-(zetaH * H.x x y z)) (-(zetaH * H.y x y z)) (-(zetaV * H.z x y z))

end Verif.Spec
