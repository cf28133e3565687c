import Mathlib.Analysis.SpecialFunctions.Pow.Real
import Mathlib.Analysis.SpecialFunctions.Log.Base
import Mathlib.Algebra.Order.Round

/-!
# Model of `get_fftlog_input` (transform.py 1260-1289) and of the multiplication in `fourier_fftlog`
(transform.py 704-779)
-/

namespace Verif.Fftlog

/-- `np.round`: to the nearest integer.  Which way a half goes does not matter here. -/
structure Rounding where
  r : ℝ → ℤ
  near : ∀ x, |x - r x| ≤ 1 / 2

/-- What `get_fftlog_input` returns. -/
structure Input where
  freq : ℕ → ℝ
  tcalc : ℕ → ℝ
  dlnr : ℝ
  kr : ℝ
  rk : ℝ

/-- `10**x`. -/
noncomputable def ten (x : ℝ) : ℝ := (10 : ℝ) ^ x

/-- `get_fftlog_input` (transform.py 1260-1289).  `phase` is `zp.imag + zm.imag` as function of `dlnr`;
entry `j` of the arrays is for `j + 1` in `np.arange(1, n+1)`. -/
noncomputable def getInput (R : Rounding) (phase : ℝ → ℝ) (rmin rmax : ℝ) (n : ℕ) : Input :=
  let logrc := (rmin + rmax) / 2
  let nc := ((n : ℝ) + 1) / 2
  let dlogr := (rmax - rmin) / n
  let dlnr := dlogr * Real.log 10
  let arg := Real.log 2 / dlnr + phase dlnr / Real.pi
  let kr := Real.exp ((arg - R.r arg) * dlnr)
  let logkc := Real.logb 10 kr - logrc
  { freq := fun j => ten (logrc + ((j : ℝ) + 1 - nc) * dlogr) / (2 * Real.pi)
    tcalc := fun j => ten (logkc + ((j : ℝ) + 1 - nc) * dlogr)
    dlnr := dlnr
    kr := kr
    rk := ten (logrc - logkc) * Real.pi / 2 }

/-- The multiplication of the packed real Fourier coefficients in the unbiased case
(transform.py 706-715, 739-740, 753-763).  `arg m` is the argument for index `m`, which the code stores at
position `m - 1`; entry `k` of the result.  The loop over `m = 1 … n//2 - 1` treats the entries `2m - 1` and
`2m`. -/
noncomputable def mulUnbiased (n : ℕ) (arg : ℕ → ℝ) (a : ℕ → ℝ) (k : ℕ) : ℝ :=
  let m := (k + 1) / 2
  if n % 2 = 0 ∧ k = n - 1 then a k * Real.cos (arg (n / 2))
  else if 1 ≤ m ∧ m < n / 2 then
    if k % 2 = 1 then a (2 * m - 1) * Real.cos (arg m) - a (2 * m) * Real.sin (arg m)
    else a (2 * m - 1) * Real.sin (arg m) + a (2 * m) * Real.cos (arg m)
  else a k

/-- The same in the biased case (transform.py 717-740, 765-781): `amp0` and `arg0` are amplitude and
argument for index zero, `amp` the amplitudes.  The last entry, for even `n`, uses position `n/2 - 4`,
that is index `n/2 - 3`; if the position is negative it is counted from the end of the `n/2` entries, that
is index `n - 3` (`IndexError` for `n = 2`, not modelled). -/
noncomputable def mulBiased (n : ℕ) (amp0 arg0 : ℝ) (amp arg : ℕ → ℝ) (a : ℕ → ℝ) (k : ℕ) : ℝ :=
  let m := (k + 1) / 2
  let last := if 4 ≤ n / 2 then n / 2 - 3 else n - 3
  if n % 2 = 0 ∧ k = n - 1 then a k * (Real.cos (arg last) * amp last)
  else if k = 0 then a 0 * (amp0 * Real.cos arg0)
  else if 1 ≤ m ∧ m < n / 2 then
    if k % 2 = 1 then (a (2 * m - 1) * Real.cos (arg m) - a (2 * m) * Real.sin (arg m)) * amp m
    else (a (2 * m - 1) * Real.sin (arg m) + a (2 * m) * Real.cos (arg m)) * amp m
  else a k

end Verif.Fftlog
