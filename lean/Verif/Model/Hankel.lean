import Verif.Model.Kernel

/-!
# The Hankel integrand (empymod/transform.py)

All Hankel transforms of the code integrate the same function of the wavenumber; only the
quadrature rule differs.
-/

namespace Verif.Transform

/-- The codes with a second-order Bessel function (transform.py 1001, 1154 and others). -/
def j2codes : List ℕ := [11, 12, 21, 22, 14, 24, 15, 25]

/-- Integrand at one wavenumber: `quad_PJ0 + quad_PJ1 + quad_PJ0b` (transform.py 1145-1164,
1172-1194).  `J0`, `J1` are the values of the Bessel functions at `off*lambda`; a kernel that is
`None` is skipped. -/
noncomputable def hankelIntegrand (k : Option ℂ × Option ℂ × Option ℂ) (ab : ℕ) (off ang : ℝ)
    (J0 J1 : ℂ) : ℂ :=
  let p0 := match k.1 with
    | none => 0
    | some PJ0 => PJ0 * J0
  let p1 := match k.2.1 with
    | none => 0
    | some PJ1 =>
      let tP1 := ang * PJ1
      (if ab ∈ j2codes then tP1 / off else tP1) * J1
  let p0b := match k.2.2 with
    | none => 0
    | some PJ0b => ang * PJ0b * J0
  p0 + p1 + p0b

end Verif.Transform
