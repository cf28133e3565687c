import Verif.Spec.Medium
import Mathlib.MeasureTheory.Integral.IntervalIntegral.Basic
import Mathlib.Analysis.SpecialFunctions.Trigonometric.Basic

/-!
# Specification: Maxwell's equations of a point dipole in a layered medium, per plane wave

`∇×H = η E + J`, `∇×E = -ζ H - K`, horizontal Fourier transform with
`∂x → -i kx`, `∂y → -i ky`, i.e. the field at `(x, y)` is

  `1/(4π²) ∫∫ F(kx, ky, z) exp(-i (kx x + ky y)) dkx dky`.

Nothing in this file refers to the code.
-/

namespace Verif.Spec
open Complex Filter Topology

/-- Electromagnetic field of one horizontal wavenumber.  The vertical components are
discontinuous at interfaces; `Ez i z`, `Hz i z` is the value at `z` seen from layer `i`. -/
structure PlaneField where
  Ex : ℝ → ℂ
  Ey : ℝ → ℂ
  Ez : ℤ → ℝ → ℂ
  Hx : ℝ → ℂ
  Hy : ℝ → ℂ
  Hz : ℤ → ℝ → ℂ

/-- A point dipole: electric moment `J`, magnetic moment `K`. -/
structure Dipole where
  Jx : ℂ
  Jy : ℂ
  Jz : ℂ
  Kx : ℂ
  Ky : ℂ
  Kz : ℂ

/-- `A` jumps by `j` at `z0` and takes the mean of both limits there. -/
def JumpAt (A : ℝ → ℂ) (z0 : ℝ) (j : ℂ) : Prop :=
  Tendsto A (𝓝[<] z0) (𝓝 (A z0 - j / 2)) ∧ Tendsto A (𝓝[>] z0) (𝓝 (A z0 + j / 2))

/-- `A` vanishes at ±∞. -/
def Decays (A : ℝ → ℂ) : Prop := Tendsto A atTop (𝓝 0) ∧ Tendsto A atBot (𝓝 0)

/-- `F` is the field, at horizontal wavenumber `(kx, ky)`, of the dipole `d` at depth `zs` in
layer `s`. -/
structure IsPlaneField (M : Medium) (kx ky zs : ℝ) (s : ℤ) (d : Dipole) (F : PlaneField) :
    Prop where
  /-- `∂z Ex - ∂x Ez = -ζ Hy` -/
  faradayY : ∀ i z, M.InOpen i z → z ≠ zs →
    HasDerivAt F.Ex (-I * kx * F.Ez i z - M.zetaH i * F.Hy z) z
  /-- `∂y Ez - ∂z Ey = -ζ Hx` -/
  faradayX : ∀ i z, M.InOpen i z → z ≠ zs →
    HasDerivAt F.Ey (-I * ky * F.Ez i z + M.zetaH i * F.Hx z) z
  /-- `∂x Ey - ∂y Ex = -ζ Hz` -/
  faradayZ : ∀ i z, M.InClosed i z →
    -I * kx * F.Ey z - -I * ky * F.Ex z = -(M.zetaV i * F.Hz i z)
  /-- `∂z Hx - ∂x Hz = η Ey` -/
  ampereY : ∀ i z, M.InOpen i z → z ≠ zs →
    HasDerivAt F.Hx (-I * kx * F.Hz i z + M.etaH i * F.Ey z) z
  /-- `∂y Hz - ∂z Hy = η Ex` -/
  ampereX : ∀ i z, M.InOpen i z → z ≠ zs →
    HasDerivAt F.Hy (-I * ky * F.Hz i z - M.etaH i * F.Ex z) z
  /-- `∂x Hy - ∂y Hx = η Ez` -/
  ampereZ : ∀ i z, M.InClosed i z →
    -I * kx * F.Hy z - -I * ky * F.Hx z = M.etaV i * F.Ez i z
  /-- tangential components are continuous across interfaces -/
  cont : ∀ z, M.IsInterface z → z ≠ zs →
    ContinuousAt F.Ex z ∧ ContinuousAt F.Ey z ∧ ContinuousAt F.Hx z ∧ ContinuousAt F.Hy z
  /-- a point dipole makes the tangential components jump; the vertical moments act through
  `-J/η`, `-K/ζ` in the vertical components -/
  jumpEx : JumpAt F.Ex zs (-d.Ky + I * kx * d.Jz / M.etaV s)
  jumpEy : JumpAt F.Ey zs (d.Kx + I * ky * d.Jz / M.etaV s)
  jumpHx : JumpAt F.Hx zs (d.Jy + I * kx * d.Kz / M.zetaV s)
  jumpHy : JumpAt F.Hy zs (-d.Jx + I * ky * d.Kz / M.zetaV s)
  decay : Decays F.Ex ∧ Decays F.Ey ∧ Decays F.Hx ∧ Decays F.Hy

/-- Unit dipole in direction `b`: 1,2,3 electric x,y,z; 4,5,6 magnetic x,y,z. -/
def unitDipole (b : ℕ) : Dipole where
  Jx := if b = 1 then 1 else 0
  Jy := if b = 2 then 1 else 0
  Jz := if b = 3 then 1 else 0
  Kx := if b = 4 then 1 else 0
  Ky := if b = 5 then 1 else 0
  Kz := if b = 6 then 1 else 0

/-- Field component `a`, at depth `z` in layer `r`: 1,2,3 electric x,y,z; 4,5,6 magnetic. -/
def PlaneField.comp (F : PlaneField) (a : ℕ) (r : ℤ) (z : ℝ) : ℂ :=
  if a = 1 then F.Ex z else if a = 2 then F.Ey z else if a = 3 then F.Ez r z
  else if a = 4 then F.Hx z else if a = 5 then F.Hy z else F.Hz r z

/-- Bessel functions `J₀`, `J₁` by their integral representation. -/
noncomputable def besselJ0 (x : ℝ) : ℂ :=
  1 / (2 * Real.pi) * ∫ φ in (0 : ℝ)..(2 * Real.pi), Complex.exp (-I * x * Real.cos φ)
@[inherit_doc besselJ0]
noncomputable def besselJ1 (x : ℝ) : ℂ :=
  I / (2 * Real.pi) * ∫ φ in (0 : ℝ)..(2 * Real.pi),
    (Real.cos φ : ℂ) * Complex.exp (-I * x * Real.cos φ)

/-- Contribution of all plane waves with wavenumber `lam` to the field at horizontal
distance `rho`, azimuth `theta` from the source: the 2-D inverse Fourier transform in polar
coordinates, before the integration over `lam`. -/
noncomputable def ringIntegral (f : ℝ → ℂ) (lam rho theta : ℝ) : ℂ :=
  lam / (4 * (Real.pi : ℂ) ^ 2) * ∫ φ in (0 : ℝ)..(2 * Real.pi),
    f φ * Complex.exp (-I * lam * rho * Real.cos (φ - theta))

end Verif.Spec
