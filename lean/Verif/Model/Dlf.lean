import Verif.Model.Hankel
import Verif.Model.Fem
import Mathlib.Analysis.SpecialFunctions.Log.Base

/-!
# Model of the digital-linear-filter transform (empymod/transform.py)

`dlf` (847-1046), `get_dlf_points` (1200-1257), `hankel_dlf` (52-119) and `fourier_dlf` (508-541),
for one frequency.  A matrix is a function of row and column; a result that raises is `none`.
`scipy.interpolate.InterpolatedUnivariateSpline` is a parameter: `R m x v y` is the spline through
the `m` points `(x i, v i)`, evaluated at `y`.
-/

namespace Verif.Transform

/-- A digital filter (filters.py 51-168): number of points, base, factor, coefficients. -/
structure Filter where
  n : ℕ
  base : ℕ → ℝ
  factor : ℝ
  j0 : ℕ → ℝ
  j1 : ℕ → ℝ
  sin : ℕ → ℝ
  cos : ℕ → ℝ

/-- Interpolation of real values. -/
abbrev RSpl := ℕ → (ℕ → ℝ) → (ℕ → ℝ) → ℝ → ℝ

/-- `spline(values, points, int_pts)`: interpolation in the logarithm, real and imaginary part
separately (transform.py 915-920). -/
noncomputable def spline (R : RSpl) (m : ℕ) (vals : ℕ → ℂ) (pts : ℕ → ℝ) (y : ℝ) : ℂ :=
  (R m (fun i => Real.log (pts i)) (fun i => (vals i).re) (Real.log y) : ℂ) +
    Complex.I * (R m (fun i => Real.log (pts i)) (fun i => (vals i).im) (Real.log y) : ℂ)

/-- `spline(v[::-1], int_pts[::-1], out_pts)` (transform.py 1031-1042). -/
noncomputable def splineRev (R : RSpl) (m : ℕ) (vals : ℕ → ℂ) (pts : ℕ → ℝ) (y : ℝ) : ℂ :=
  spline R m (fun i => vals (m - 1 - i)) (fun i => pts (m - 1 - i)) y

/-- `np.dot(sig, coef)`, one row (transform.py 968 and others). -/
noncomputable def dot (n : ℕ) (sig : ℕ → ℂ) (coef : ℕ → ℝ) : ℂ :=
  ((List.range n).map fun k => sig k * (coef k : ℂ)).sum

/-- Lagged convolution (transform.py 931-936): the signal of length `nout` tiled `m` times, `m` zeros
appended, reshaped into `m` rows; entry `(i, k)`. -/
def lagWindow (nout m : ℕ) (val : ℕ → ℂ) (i k : ℕ) : ℂ :=
  let flat := i * ((m * nout + m) / m) + k
  if flat < m * nout then val (flat % nout) else 0

/-- Kernels `PJ0, PJ1, PJ0b`; `none` is Python's `None`. -/
abbrev Kernels := Option (ℕ → ℕ → ℂ) × Option (ℕ → ℕ → ℂ) × Option (ℕ → ℕ → ℂ)

open Classical in
/-- `one_angle` (transform.py 880). -/
noncomputable def oneAngle (ang : List ℝ) : Bool := decide (ang.min? = ang.max?)

open Classical in
/-- `has_angle_factors` (transform.py 877-885, 899). -/
noncomputable def hasAngle (ang : List ℝ) (K : Kernels) : Bool :=
  (if oneAngle ang then decide (ang.headD 0 ≠ 1) else true) && (K.2.1.isSome || K.2.2.isSome)

/-- `ang_fact` at output `j` (transform.py 883: only the first if there is only one angle). -/
noncomputable def angAt (ang : List ℝ) (j : ℕ) : ℝ :=
  if oneAngle ang then ang.headD 0 else ang.getD j 0

/-- `if has_angle_factors: out *= ang_fact` (transform.py 985, 1012, 1034). -/
noncomputable def mulAng (ang : Option (List ℝ)) (K : Kernels) (j : ℕ) (x : ℂ) : ℂ :=
  match ang with
  | none => x
  | some a => if hasAngle a K then x * (angAt a j : ℂ) else x

/-- `np.dot` with a kernel, if it is used. -/
noncomputable def kdot (n : ℕ) (P : Option (ℕ → ℕ → ℂ)) (coef : ℕ → ℝ) (i : ℕ) : ℂ :=
  match P with
  | none => 0
  | some p => dot n (p i) coef

/-- `J1` and `J0b` part before the angle factor, row `i` (transform.py 970-980, 997-1008); `r` is what
the `J2` codes are divided by. -/
noncomputable def angPart (F : Filter) (K : Kernels) (ab : ℕ) (r : ℝ) (i : ℕ) : ℂ :=
  (if ab ∈ j2codes then kdot F.n K.2.1 F.j1 i / (r : ℂ) else kdot F.n K.2.1 F.j1 i) +
    kdot F.n K.2.2 F.j0 i

/-- The three variants: `pts_per_dec` zero, positive, negative. -/
inductive Variant where
  | standard
  | splined
  | lagged
deriving DecidableEq

/-- Where the transform is evaluated: wavenumbers (`points`), offsets or times (`out_pts`), and
interpolation points (`int_pts`, only lagged). -/
structure Pts where
  nout : ℕ
  points : ℕ → ℝ
  out : ℕ → ℝ
  m : ℕ
  intp : ℕ → ℝ

/-- Step 1 of `dlf` for one signal (transform.py 922-946). -/
noncomputable def prepare (R : RSpl) (v : Variant) (F : Filter) (P : Pts) (p : ℕ → ℕ → ℂ) : ℕ → ℕ → ℂ :=
  match v with
  | .lagged => lagWindow P.nout P.m (p 0)
  | .splined => fun i k => spline R P.nout (p 0) P.points (F.base k / P.out i)
  | .standard => p

/-- Step 1 for the three kernels. -/
noncomputable def prepareK (R : RSpl) (v : Variant) (F : Filter) (P : Pts) (K : Kernels) : Kernels :=
  (K.1.map (prepare R v F P), K.2.1.map (prepare R v F P), K.2.2.map (prepare R v F P))

/-- Steps 2 and 3 of `dlf` (transform.py 948-1042), output `j`; `one` is `one_angle`. -/
noncomputable def transformK (R : RSpl) (v : Variant) (F : Filter) (P : Pts) (K : Kernels)
    (ang : Option (List ℝ)) (one : Bool) (ab j : ℕ) : ℂ :=
  match v, one with
  | .splined, false => mulAng ang K j (angPart F K ab (P.out j) j) + kdot F.n K.1 F.j0 j
  | .lagged, false =>
    mulAng ang K j (splineRev R P.m (fun i => angPart F K ab (P.intp i) i) P.intp (P.out j)) +
      (if K.1.isSome then splineRev R P.m (fun i => kdot F.n K.1 F.j0 i) P.intp (P.out j) else 0)
  | .lagged, true =>
    splineRev R P.m (fun i => mulAng ang K j (angPart F K ab (P.intp i) i) + kdot F.n K.1 F.j0 i)
      P.intp (P.out j)
  | _, _ => mulAng ang K j (angPart F K ab (P.out j) j) + kdot F.n K.1 F.j0 j

/-- `dlf` for the Hankel transform (transform.py 847-1046).  It raises if no kernel is given
(`inp_index` is not assigned), and without angle factors in the splined and lagged variants
(`one_angle` is not assigned). -/
noncomputable def dlfHankel (R : RSpl) (v : Variant) (F : Filter) (P : Pts) (K : Kernels)
    (ang : Option (List ℝ)) (ab j : ℕ) : Option ℂ :=
  if (K.1.isSome || K.2.1.isSome || K.2.2.isSome) = false then none
  else match ang, v with
    | none, .standard =>
      some (transformK R v F P (prepareK R v F P K) none true ab j / (P.out j : ℂ))
    | none, _ => none
    | some a, _ =>
      some (transformK R v F P (prepareK R v F P K) ang (oneAngle a) ab j / (P.out j : ℂ))

/-- `dlf` for the Fourier transform (transform.py 901-912, 1024-1046): `sine` is `kind == 'sin'`. -/
noncomputable def dlfFourier (R : RSpl) (v : Variant) (F : Filter) (P : Pts) (sig : ℕ → ℕ → ℂ)
    (sine : Bool) (j : ℕ) : ℂ :=
  let s : ℕ → ℕ → ℂ := fun i k =>
    if sine then ((-(sig i k).im : ℝ) : ℂ) else (((sig i k).re : ℝ) : ℂ)
  let row : ℕ → ℂ := fun i => dot F.n (prepare R v F P s i) (if sine then F.sin else F.cos)
  (if v = .lagged then splineRev R P.m row P.intp (P.out j) else row j) / (P.out j : ℂ)

/-- `hankel_dlf` with the standard DLF (transform.py 106-119) for several frequencies: `kern xd a i k` are the
kernels of frequency row `a` at wavenumber `filt.base[k]/off[i]`. -/
noncomputable def hankelDlf {α : Type} (R : RSpl) (F : Filter) (ab : ℕ)
    (kern : Bool → α → (ℕ → ℕ → ℝ) → Kernels) : Model.Calc α := fun xd rows offs =>
  let P : Pts := ⟨0, fun _ => 0, fun i => (offs.map Prod.fst).getD i 0, 0, fun _ => 0⟩
  { val := fun i j => match rows[i]? with
      | none => 0
      | some a => (dlfHankel R .standard F P (kern xd a fun i k => F.base k / P.out i)
          (some (offs.map Prod.snd)) ab j).getD 0
    kcount := 1
    conv := true }

/-- `np.arange(start, stop, step)`: number of elements. -/
noncomputable def arangeLen (start stop step : ℝ) : ℕ := ⌈(stop - start) / step⌉₊
/-- `np.arange(start, stop, step)[i]`. -/
noncomputable def arangeAt (start step : ℝ) (i : ℕ) : ℝ := start + i * step

/-- `outmax/outmin` of `get_dlf_points` (transform.py 1208-1209): `(outmin, outmax)`. -/
noncomputable def outRange (F : Filter) (inmin inmax : ℝ) : ℝ × ℝ :=
  (F.base 0 / inmax, F.base (F.n - 1) / inmin)

/-- Number of wavenumbers, lagged (transform.py 1213-1216, 1226-1230). -/
noncomputable def lagNout (F : Filter) (inmin inmax : ℝ) : ℕ :=
  let nout := ⌈Real.log ((outRange F inmin inmax).2 / (outRange F inmin inmax).1) *
    (1 / Real.log F.factor)⌉₊ + 1
  if (nout : ℤ) - F.n < 3 then F.n + 3 else nout

/-- `get_dlf_points`, lagged (transform.py 1239-1245, 1257).  `inmin`, `inmax` are the smallest and
largest entry of `inp`. -/
noncomputable def lagPoints (F : Filter) (inmin inmax : ℝ) (out : ℕ → ℝ) : Pts :=
  let ppd := 1 / Real.log F.factor
  let nout := lagNout F inmin inmax
  let lo := Real.log (outRange F inmin inmax).1
  { nout := arangeLen lo (lo + nout / ppd) (1 / ppd)
    points := fun i => Real.exp (arangeAt lo (1 / ppd) i)
    out := out
    m := nout - F.n + 1
    intp := fun i => inmax * Real.exp (-(i : ℝ) / ppd) }

/-- Number of wavenumbers, splined (transform.py 1218-1222, 1232-1237). -/
noncomputable def splNout (F : Filter) (inmin inmax ppd : ℝ) : ℕ :=
  let nout := ⌈Real.logb 10 ((outRange F inmin inmax).2 / (outRange F inmin inmax).1) * ppd⌉₊ + 1
  if nout < 4 then 4 else nout

/-- `get_dlf_points`, splined (transform.py 1246-1257). -/
noncomputable def splPoints (F : Filter) (inmin inmax ppd : ℝ) (out : ℕ → ℝ) : Pts :=
  let nout := splNout F inmin inmax ppd
  let lo := Real.logb 10 (outRange F inmin inmax).1
  { nout := arangeLen lo (lo + nout / ppd) (1 / ppd)
    points := fun i => (10 : ℝ) ^ (arangeAt lo (1 / ppd) i)
    out := out
    m := 0
    intp := fun _ => 0 }

end Verif.Transform
