import Verif.Model.Dlf
import Verif.Model.Py
import Mathlib.Analysis.SpecialFunctions.Trigonometric.Basic

/-!
# Model of `tem` (model.py 1673-1715), of the choice of sine and cosine in `check_time`
(utils.py 1039-1046, 1088-1091, 1179-1182), of the check of the signal (utils.py 1332-1334) and of
`fourier_fft` (transform.py 799-842)
-/

namespace Verif.Tem
open Verif.Py Verif.Transform

/-- `int(x)`: truncation. -/
noncomputable def trunc (x : ℝ) : ℤ := if 0 ≤ x then ⌊x⌋ else ⌈x⌉

/-- The check of a signal that is not a dictionary (utils.py 1332-1334). -/
noncomputable def checkSignal (s : ℝ) : W Unit :=
  if trunc s = -1 ∨ trunc s = 0 ∨ trunc s = 1 then pure () else W.raise .valueError

open Classical in
/-- `targ['kind']` of the digital filter method (utils.py 1039-1046); `user` is the argument, with default
`'sin'`.  The value is whether it is the sine. -/
noncomputable def dlfKind (s : ℝ) (user : String) : W Bool :=
  let kind := if s > 0 then "sin" else if s < 0 then "cos" else user
  if kind = "sin" then pure true else if kind = "cos" then pure false else W.raise .valueError

open Classical in
/-- `targ['sincos']` of QWE (utils.py 1088-1091), and `targ['mu']` of FFTLog being positive
(utils.py 1179-1182, transform.py 699): whether it is the sine. -/
noncomputable def isSine (s : ℝ) : Bool := decide (s ≥ 0)

open Classical in
/-- `fact` (model.py 1695-1699) at frequency `f`. -/
noncomputable def scale (s f : ℝ) : ℂ :=
  if s = -1 ∨ s = 1 then (s : ℂ) / (2 * Complex.I * Real.pi * f) else 1

/-- `tem` (model.py 1673-1715).  `trf` is the transform for the checked arguments: response at the times
and convergence flag; `wave` is `apply_waveform`.  The result is, for each offset, the list over times. -/
noncomputable def tem (trf : (ℕ → ℂ) → List ℝ × Bool) (fEM : ℕ → ℕ → ℂ) (freq : ℕ → ℝ) (noff : ℕ) (s : ℝ)
    (wave : Option (List ℝ → List ℝ)) (conv : Bool) : (ℕ → List ℝ) × Bool :=
  let out := fun i => trf fun n => fEM n i * scale s (freq n)
  let tEM := fun i => (out i).1.map fun x => x * (2 / Real.pi)
  (match wave with
    | none => tEM
    | some w => fun i => w (tEM i),
   conv && (List.range noff).all fun i => (out i).2)

/-! ## FFT -/

/-- `np.pad(fEM, (0, ntot-nfreq), 'linear_ramp')` (transform.py 829). -/
noncomputable def padRamp (nfreq ntot : ℕ) (x : ℕ → ℂ) (k : ℕ) : ℂ :=
  if k < nfreq then x k
  else x (nfreq - 1) * (1 - ((k : ℂ) - (nfreq : ℂ) + 1) / ((ntot : ℂ) - (nfreq : ℂ)))

/-- `np.r_[fEM[1:], 0, fEM[::-1].conj()]` (transform.py 832). -/
noncomputable def fftIn (n : ℕ) (x : ℕ → ℂ) (k : ℕ) : ℂ :=
  if k < n - 1 then x (k + 1) else if k = n - 1 then 0 else (starRingEnd ℂ) (x (2 * n - 1 - k))

/-- `sp.fftpack.ifft(y)` of length `N`, entry `k` (transform.py 832). -/
noncomputable def ifft (N : ℕ) (y : ℕ → ℂ) (k : ℕ) : ℂ :=
  (∑ j ∈ Finset.range N, y j * Complex.exp (2 * Real.pi * Complex.I * j * k / N)) / N

/-- `stEM` (transform.py 832-833): entry `k`, after the shift by half the length. -/
noncomputable def fftSeries (n : ℕ) (dfreq : ℝ) (x : ℕ → ℂ) (k : ℕ) : ℝ :=
  2 * n * ((ifft (2 * n) (fftIn n x) ((k + n) % (2 * n))).re * dfreq)

/-- The response at the linear frequencies, interpolated if `pts_per_dec` is given
(transform.py 821-826); `m` is the number of computed frequencies. -/
noncomputable def fftInput (R : RSpl) (pts : Bool) (m : ℕ) (freq : ℕ → ℝ) (dfreq : ℝ) (x : ℕ → ℂ) :
    ℕ → ℂ :=
  if pts then fun k => spline R m x freq (((k : ℝ) + 1) * dfreq) else x

/-- `fourier_fft` (transform.py 799-842) at time `t`. -/
noncomputable def fourierFft (R : RSpl) (pts : Bool) (m : ℕ) (freq : ℕ → ℝ) (dfreq : ℝ) (nfreq ntot : ℕ)
    (x : ℕ → ℂ) (t : ℝ) : ℝ :=
  R (2 * ntot) (fun k => ((k : ℝ) - ntot) * (1 / (2 * ntot * dfreq)))
    (fftSeries ntot dfreq (padRamp nfreq ntot (fftInput R pts m freq dfreq x))) t / 2 * Real.pi

end Verif.Tem
