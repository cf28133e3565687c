import Verif.Model.Verb
import Verif.Model.Waveform
import Verif.Model.Qwe
import Verif.Model.BipoleFull

/-!
# Model of the time domain: `dipole` and `bipole` with `signal`, and `gpr`

`check_time` (utils.py 964-1275) with `check_time_only` and `check_waveform`, the four Fourier transforms
(transform.py 508-842), and what `dipole` (model.py 842-919), `bipole` (model.py 441-636) and `gpr` (model.py
1198-1290) do with them.

Parameters (`FBack`): what `Verif.Model.Args` needs, Gauss quadrature, spline, `scipy.integrate.quad`,
`loggamma`.  The spline raises `ValueError` for fewer than four points or points that do not increase.
Not modelled: times below zero (the logarithm is not a number), `bandpass`, `maxint`, `nquad` and `nfreq` below one
(they raise here in the transform instead of in `check_time`), unknown keys in a waveform, waveforms with two equal
nodes.
-/

namespace Verif.Time
open Verif.Py Verif.Py.W Verif.Args Verif.Transform Verif.Model

/-- `signal` (model.py 169-186): a number or a dictionary. -/
inductive Signal where
  | num (s : ℝ)
  | wave (nodes amps : List ℝ) (signal : ℝ) (nquad : ℕ)

/-- What the Fourier transforms use from outside. -/
structure FBack where
  E : Env
  C : Conv
  lib : String → Option Val
  dflt : Val
  /-- `sp.special.roots_legendre(n)` -/
  gauss : ℕ → Waveform.Quad
  R : RSpl
  /-- `sp.integrate.quad(f, a, b, …, atol, rtol, limit)`: value, and whether there was no warning -/
  quad : (ℝ → ℝ) → ℝ → ℝ → ℝ → ℝ → ℝ → ℝ × Bool
  /-- see `QPar` -/
  tiny : ℝ
  big : ℝ
  zero : ℂ → Bool
  /-- `sp.special.loggamma` -/
  lgam : ℂ → ℂ

/-! ## Checks -/

open Classical in
/-- `np.diff(amplitudes)/np.diff(nodes)` (utils.py 1396-1398) and the indices into `nodes` (utils.py 1415-1421):
nodes and amplitudes of the waveform that is calculated.  If there is one difference only in one of them, it is
broadcast. -/
noncomputable def waveForm (time nodes amps : List ℝ) : Except PyErr (List ℝ × List ℝ) :=
  if nodes.length = amps.length then .ok (nodes, amps)
  else if amps.length = 2 then
    .ok (nodes, (List.range nodes.length).map fun i : ℕ => (i : ℝ) * (amps.getD 1 0 - amps.getD 0 0))
  else if nodes.length = 2 then
    if amps.length ≤ 1 then .ok ([], [])
    else if (∃ i, 2 ≤ i ∧ i + 1 < amps.length ∧ amps.getD (i + 1) 0 ≠ amps.getD i 0) ∨
        (amps.getD 2 0 ≠ amps.getD 1 0 ∧ ∃ t ∈ time, nodes.getD 1 0 < t) then .error .indexError
    else .ok (nodes, amps.take 2)
  else if nodes.length ≤ 1 ∧ amps.length ≤ 1 then .ok ([], [])
  else .error .valueError

/-- What `check_time` returns (utils.py 1266): times to compute, frequencies, method, arguments, signal,
waveform function; and the number of times in the result. -/
structure Checked where
  time : List ℝ
  freq : List ℝ
  ft : String
  targ : Dict
  signal : ℝ
  wave : Option (List ℝ → List ℝ)
  ntime : ℕ

/-- `check_time_only` (utils.py 1278-1348): times to compute, signal, waveform function, number of times. -/
noncomputable def checkTimeOnly (T : FBack) (m : Utils.Mins) (time : List ℝ) (sig : Signal) (verb : ℤ) :
    W (List ℝ × ℝ × Option (List ℝ → List ℝ) × ℕ) :=
  match sig with
  | .num s => do
    let time ← Verb.checkTimeOnly m time s verb
    pure (time, s, none, time.length)
  | .wave nodes amps s nquad => do
    let time ← Utils.checkMin time (some m.minTime) "Times" verb
    say (verb > 2) "   time        [s]"
    if nquad = 0 then raise .valueError
    else do
      let w ← Model.ofExcept (waveForm time nodes amps)
      match Waveform.checkWaveform (T.gauss nquad) m.minTime time w.1 w.2 with
      | none => raise .valueError
      | some (ct, app) => do
        say (verb > 2) "   time comp.  [s], wave nodes, wave ampl., signal"
        pure (ct, s, some app, time.length)

/-- `check_time` (utils.py 964-1266, with `new=True`). -/
noncomputable def checkTime (T : FBack) (m : Utils.Mins) (time : List ℝ) (sig : Signal) (ft : String)
    (ftarg : Dict) (verb : ℤ) : W Checked := do
  let w ← checkTimeOnly T m time sig verb
  let c ← Verb.checkTime T.E T.C T.lib T.dflt w.1 w.2.1 ft ftarg verb
  pure ⟨w.1, c.1, c.2.1, c.2.2, w.2.1, w.2.2.1, w.2.2.2⟩

/-! ## Fourier transforms -/

/-- Points `iuSpline` accepts (transform.py 45-47). -/
def SplOK (m : ℕ) (x : ℕ → ℝ) : Prop := 4 ≤ m ∧ ∀ i, i + 1 < m → x i < x (i + 1)

/-- Points whose logarithms `iuSpline` accepts. -/
def LogOK (m : ℕ) (x : ℕ → ℝ) : Prop := SplOK m x ∧ 0 < x 0

open Classical in
/-- `if c` no exception, otherwise `ValueError`. -/
noncomputable def need (c : Prop) : Except PyErr Unit := if c then .ok () else .error .valueError

/-- `ftarg[k]` where it is a name. -/
def getStr (k : String) (d : Dict) : Except PyErr String :=
  match d.lookup k with
  | some (.str s) => .ok s
  | some _ => .error .typeError
  | none => .error .keyError

/-- `ftarg[k]` where an array is needed. -/
def getArr (k : String) (d : Dict) : Except PyErr (List ℝ) :=
  match d.lookup k with
  | some (.arr l) => .ok l
  | some _ => .error .typeError
  | none => .error .keyError

/-- `ftarg[k]` where `None` and zero mean the default (transform.py 620-629). -/
noncomputable def getOpt (k : String) (d : Dict) : Except PyErr (Option ℝ) :=
  match d.lookup k with
  | some .none => .ok none
  | some (.num x) => .ok (if x = 0 then none else some x)
  | some _ => .error .typeError
  | none => .error .keyError

/-- Points for the DLF (transform.py 534, 928, 942): `freq` are the frequencies of `check_time`. -/
noncomputable def dlfPts (F : Filter) (time freq : List ℝ) (tmin tmax : ℝ) : Pts :=
  let P := lagPoints F tmin tmax fun i => time.getD i 0
  ⟨freq.length, fun i => 2 * Real.pi * freq.getD i 0, fun i => time.getD i 0, P.m, P.intp⟩

open Classical in
/-- `fourier_dlf` (transform.py 508-541). -/
noncomputable def fourierDlf (T : FBack) (time freq : List ℝ) (d : Dict) (x : ℕ → ℂ) :
    Except PyErr (List ℝ × Bool) := do
  let F ← (getDlf d).val
  let ppd ← (getNum "pts_per_dec" d).val
  let kind ← getStr "kind" d
  let nt := time.length
  if ppd = 0 then do
    need (nt ≠ 0)
    .ok ((List.range nt).map fun j => (dlfFourier T.R .standard F (dlfPts F time freq 0 0)
      (fun i k => x (i * (freq.length / nt) + k)) (kind = "sin") j).re, true)
  else if ppd < 0 then do
    let tmin ← (minTime time).val
    let tmax ← (maxTime time).val
    let P := dlfPts F time freq tmin tmax
    need (LogOK P.m fun i => P.intp (P.m - 1 - i))
    .ok ((List.range nt).map fun j => (dlfFourier T.R .lagged F P (fun _ => x) (kind = "sin") j).re, true)
  else do
    let P := dlfPts F time freq 0 0
    need (LogOK P.nout P.points)
    .ok ((List.range nt).map fun j => (dlfFourier T.R .splined F P (fun _ => x) (kind = "sin") j).re, true)

/-- Interpolated response (transform.py 598-599): value at the logarithm of an angular frequency, with minus the
imaginary part as imaginary part. -/
noncomputable def qweSpl (R : RSpl) (freq : List ℝ) (x : ℕ → ℂ) (y : ℝ) : ℂ :=
  let lw := fun i => Real.log (2 * Real.pi * freq.getD i 0)
  ⟨R freq.length lw (fun i => (x i).re) y, R freq.length lw (fun i => -(x i).im) y⟩

open Classical in
/-- `doqwe` (transform.py 604-608) for one time; a division by zero compares false. -/
noncomputable def doQwe (sine : Bool) (maxint : ℕ) (dq : ℝ) (f : ℝ → ℂ) (t : ℝ) : Bool :=
  decide (∀ i < maxint, ‖f (Real.log (qweInt sine (i + 1) / t))‖ ≠ 0 ∧
    ‖f (Real.log (qweInt sine i / t))‖ / ‖f (Real.log (qweInt sine (i + 1) / t))‖ < dq)

/-- Column `c` of `sEM` (transform.py 592-594, 649): quadrature point `c % nquad` of interval `c / nquad`. -/
noncomputable def qweCol (sine : Bool) (Q : Waveform.Quad) (f : ℝ → ℝ) (t : ℝ) (c : ℕ) : ℝ :=
  let B := qweBx sine (c / Q.n) (Q.x (c % Q.n))
  f (Real.log (B / t)) * ((if sine then Real.sin B else Real.cos B) * Q.w (c % Q.n))

/-- What `qwe` adds up for a time (transform.py 649-650, 1064-1066, 1083-1084): column `i` of `sEM` times the weight
of interval `i`. -/
noncomputable def qweTerm (sine : Bool) (Q : Waveform.Quad) (f : ℝ → ℝ) (t : ℝ) (i : ℕ) : ℝ :=
  qweCol sine Q f t i * ((qweInt sine (i + 1) / t - qweInt sine i / t) / 2)

open Classical in
/-- `fourier_qwe` (transform.py 544-653). -/
noncomputable def fourierQwe (T : FBack) (time freq : List ℝ) (d : Dict) (x : ℕ → ℂ) :
    Except PyErr (List ℝ × Bool) := do
  let rtol ← (getNum "rtol" d).val
  let atol ← (getNum "atol" d).val
  let nq ← (getNum "nquad" d).val
  let mx ← (getNum "maxint" d).val
  let dq ← (getNum "diff_quad" d).val
  let a ← getOpt "a" d
  let b ← getOpt "b" d
  let limit ← getOpt "limit" d
  let sincos ← getStr "sincos" d
  need (0 < nq ∧ 0 < mx ∧ LogOK freq.length fun i => 2 * Real.pi * freq.getD i 0)
  let sine : Bool := sincos = "sin"
  let Q := T.gauss ⌊nq⌋₊
  let maxint := ⌊mx⌋₊
  let f := qweSpl T.R freq x
  let g := fun y => if sine then (f y).im else (f y).re
  let good := time.filter fun t => doQwe sine maxint dq f t
  let bad := time.filter fun t => !doQwe sine maxint dq f t
  if good ≠ [] ∧ maxint ≤ 1 then .error .unboundLocal
  else
    let q := (qwe ⟨rtol, atol, T.tiny, T.big, T.zero⟩ maxint good.length fun j i =>
      (qweTerm sine Q g (good.getD j 0) i : ℂ)).getD (fun _ => 0, 0, true)
    let qd := fun t => T.quad (fun w => g (Real.log w) * (if sine then Real.sin (w * t) else Real.cos (w * t)))
      (a.getD (qweInt sine 0 / t)) (b.getD (qweInt sine maxint / t)) atol rtol (limit.getD mx)
    .ok ((List.range time.length).map fun j =>
        let t := time.getD j 0
        if doQwe sine maxint dq f t then
          (q.1 ((time.take j).filter fun t => doQwe sine maxint dq f t).length).re
        else (qd t).1,
      bad.all (fun t => (qd t).2) && (good.isEmpty || q.2.2))

/-- `sp.fftpack.rfft` (transform.py 750): packed, entry `k`. -/
noncomputable def rfft (n : ℕ) (a : ℕ → ℝ) (k : ℕ) : ℝ :=
  let m := (k + 1) / 2
  if k % 2 = 0 ∧ k ≠ 0 then -∑ j ∈ Finset.range n, a j * Real.sin (2 * Real.pi * j * m / n)
  else ∑ j ∈ Finset.range n, a j * Real.cos (2 * Real.pi * j * m / n)

/-- `sp.fftpack.irfft` (transform.py 784): entry `j` from the packed coefficients. -/
noncomputable def irfft (n : ℕ) (y : ℕ → ℝ) (j : ℕ) : ℝ :=
  (y 0 + 2 * ∑ m ∈ Finset.Icc 1 ((n - 1) / 2), (y (2 * m - 1) * Real.cos (2 * Real.pi * j * m / n) -
      y (2 * m) * Real.sin (2 * Real.pi * j * m / n)) +
    (if n % 2 = 0 then (-1) ^ j * y (n - 1) else 0)) / n

/-- `(j - jc)*dlnr` (transform.py 743-747). -/
noncomputable def logStep (n : ℕ) (dlnr : ℝ) (j : ℕ) : ℝ := ((j : ℝ) + 1 - ((n : ℝ) + 1) / 2) * dlnr

open Classical in
/-- The transform of FFTLog on its own points (transform.py 698-788); `x` are the real input values. -/
noncomputable def fftlogSeries (lgam : ℂ → ℂ) (n : ℕ) (q mu dlnr kr rk : ℝ) (x : ℕ → ℝ) (j : ℕ) : ℝ :=
  let ln2kr := Real.log (2 / kr)
  let y := fun m : ℕ => (m : ℝ) * (Real.pi / (n * dlnr))
  let a := rfft n fun j => x j * Real.exp (-(q - 0.5) * logStep n dlnr j)
  let xp := (mu + 1 + q) / 2
  let xm := (mu + 1 - q) / 2
  let b := if q = 0 then
      Fftlog.mulUnbiased n (fun m => 2 * (ln2kr * y m + (lgam (((mu + 1) / 2 : ℝ) + Complex.I * y m)).im)) a
    else Fftlog.mulBiased n (Real.exp (Real.log 2 * q + (lgam xp).re - (lgam xm).re))
      ((lgam xp).im + (lgam xm).im)
      (fun m => Real.exp (Real.log 2 * q + (lgam (xp + Complex.I * y m)).re - (lgam (xm + Complex.I * y m)).re))
      (fun m => 2 * ln2kr * y m + (lgam (xp + Complex.I * y m)).im + (lgam (xm + Complex.I * y m)).im) a
  irfft n b (n - 1 - j) * Real.exp (-((q + 0.5) * logStep n dlnr j + q * Real.log kr - Real.log rk / 2))

open Classical in
/-- `fourier_fftlog` (transform.py 656-796). -/
noncomputable def fourierFftlog (T : FBack) (time freq : List ℝ) (d : Dict) (x : ℕ → ℂ) :
    Except PyErr (List ℝ × Bool) := do
  let q ← (getNum "q" d).val
  let mu ← (getNum "mu" d).val
  let tcalc ← getArr "tcalc" d
  let dlnr ← (getNum "dlnr" d).val
  let kr ← (getNum "kr" d).val
  let rk ← (getNum "rk" d).val
  let n := freq.length
  if n = 2 ∧ q ≠ 0 then .error .indexError
  else do
    need (LogOK n fun i => tcalc.getD i 0)
    let a := fftlogSeries T.lgam n q mu dlnr kr rk fun j => if mu > 0 then -(x j).im else (x j).re
    .ok (time.map fun t => T.R n (fun i => Real.log (tcalc.getD i 0)) a (Real.log t), true)

/-- `fourier_fft` (transform.py 799-842). -/
noncomputable def fourierFft (T : FBack) (time freq : List ℝ) (d : Dict) (x : ℕ → ℂ) :
    Except PyErr (List ℝ × Bool) := do
  let dfreq ← (getNum "dfreq" d).val
  let nfreq ← (getNum "nfreq" d).val
  let ntot ← (getNum "ntot" d).val
  let pts ← getOpt "pts_per_dec" d
  need (0 < nfreq ∧ nfreq ≤ ntot ∧ 0 < dfreq ∧ 1 < ntot ∧
    (pts.isSome → LogOK freq.length fun i => freq.getD i 0))
  .ok (time.map (Tem.fourierFft T.R pts.isSome freq.length (fun i => freq.getD i 0) dfreq ⌊nfreq⌋₊ ⌊ntot⌋₊ x),
    true)

/-- `getattr(transform, 'fourier_'+ft)(fEM, time, freq, ftarg)` (model.py 1702-1705). -/
noncomputable def fourier (T : FBack) (c : Checked) (freq : List ℝ) (x : ℕ → ℂ) :
    Except PyErr (List ℝ × Bool) :=
  if c.ft = "dlf" then fourierDlf T c.time freq c.targ x
  else if c.ft = "qwe" then fourierQwe T c.time freq c.targ x
  else if c.ft = "fftlog" then fourierFftlog T c.time freq c.targ x
  else fourierFft T c.time freq c.targ x

/-! ## `dipole`, `bipole`, `gpr` -/

/-- The exception of a result. -/
def errOf {α : Type} : Except PyErr α → Option PyErr
  | .ok _ => none
  | .error e => some e

/-- The value of a result that is not an exception. -/
def okOr {α : Type} (a : α) : Except PyErr α → α
  | .ok x => x
  | .error _ => a

/-- `tem` and the warning (model.py 624-629, 906-910): the loop over the pairs stops at the first exception. -/
noncomputable def temStep (T : FBack) (c : Checked) (verb : ℤ) : Post := fun freq noff v =>
  match (List.range noff).findSome? fun i =>
      errOf (fourier T c freq fun n => v n i * Tem.scale c.signal (freq.getD n 0)) with
  | some e => raise e
  | none => do
    let r := Tem.tem (fun x => okOr ([], true) (fourier T c freq x)) v (freq.getD · 0) noff c.signal c.wave true
    say (verb > 0 ∧ r.2 = false) "* WARNING :: Fourier-quadrature did not converge at least once"
    pure (c.ntime, fun i k => ((r.1 k).getD i 0 : ℂ))

/-- Whether the frequencies of `check_time` are an array of more than one dimension (utils.py 1081-1083): standard
DLF with several times and a filter of more than one point. -/
def manyRows (c : Checked) : Prop :=
  c.ft = "dlf" ∧ c.targ.lookup "pts_per_dec" = some (.num 0) ∧ 1 < c.time.length ∧ c.time.length < c.freq.length

/-- Whether `check_frequency` prints such an array row by row (utils.py 511-512, 2165-2178); a row cannot be
formatted with `G`. -/
def printsRows (c : Checked) (verb : ℤ) : Prop := manyRows c ∧ verb > 2 ∧ (c.freq.length ≤ 3 ∨ verb > 3)

open Classical in
/-- `dipole` (model.py 663-922) with a signal: `A.freq` are the times. -/
noncomputable def dipoleTime (B : Back) (T : FBack) (A : DipoleArgs) (sig : Signal) (ft : String)
    (ftarg : Dict) : W NdArray := do
  let c ← checkTime T B.m A.freq sig ft ftarg A.verb
  if printsRows c A.verb then do
    let _ ← Utils.checkModel B.m A.depth A.res A.aniso A.epermH A.epermV A.mpermH A.mpermV A.xdirect A.verb
    raise .typeError
  else do
    let EM ← dipoleWith B { A with freq := c.freq } (temStep T c A.verb)
    pure (if A.squeeze then EM.squeeze else EM)

/-- `EM[0, :]` (model.py 625) and `tem`. -/
noncomputable def temStepB (T : FBack) (c : Checked) (verb : ℤ) : Post := fun freq noff v =>
  if freq = [] then raise .indexError else temStep T c verb freq noff v

open Classical in
/-- `bipole` (model.py 73-660) with a signal: `A.freq` are the times. -/
noncomputable def bipoleTime (B : Back) (T : FBack) (e : Utils.Ext) (A : BipoleArgs) (sig : Signal)
    (ft : String) (ftarg : Dict) : W NdArray := do
  let c ← checkTime T B.m A.freq sig ft ftarg A.verb
  if printsRows c A.verb then do
    let _ ← Utils.checkModel B.m A.depth A.res A.aniso A.epermH A.epermV A.mpermH A.mpermV A.xdirect A.verb
    raise .typeError
  else do
    let EM ← bipoleWith B e { A with freq := c.freq } (temStepB T c A.verb)
    pure (if A.squeeze then EM.squeeze else EM)

/-- `fwave` (model.py 1268-1269): entry `i`. -/
noncomputable def ricker (freq : List ℝ) (cf : ℝ) (i : ℕ) : ℝ :=
  let cfc := -((if i = 0 then 0 else freq.getD (i - 1) 0) / cf) ^ 2
  cfc * Real.exp cfc

open Classical in
/-- `gpr` (model.py 1198-1290); `A.freq` are the times. -/
noncomputable def gpr (B : Back) (T : FBack) (A : DipoleArgs) (cf : ℝ) (gain : Option ℝ) (ft : String)
    (ftarg : Dict) : W NdArray := do
  say (A.verb > 2) "   GPR             :  EXPERIMENTAL, USE WITH CAUTION"
  let c ← checkTime T B.m A.freq (.num 0) ft ftarg A.verb
  if printsRows c A.verb then do
    let _ ← Utils.checkModel B.m A.depth A.res A.aniso A.epermH A.epermV A.mpermH A.mpermV A.xdirect A.verb
    raise .typeError
  else do
    let EM ← dipole B { A with freq := c.freq, squeeze := true }
    let src ← Model.ofExcept (Utils.checkDipole A.src)
    let rcv ← Model.ofExcept (Utils.checkDipole A.rcv)
    let nsrc := src.1.length
    let nrec := rcv.1.length
    if manyRows c then raise .valueError
    else do
      let r ← temStep T c A.verb c.freq (nrec * nsrc) fun i k =>
        EM.data ((i * nrec + k % nrec) * nsrc + k / nrec) * (ricker c.freq cf i : ℂ)
      match gain with
      | none => raise .typeError
      | some p =>
        pure (reshapeF r.1 nrec nsrc fun i k =>
          (((r.2 i k).re * (1 + |(c.time.getD i 0 * 10 ^ 9) ^ p|) : ℝ) : ℂ)).squeeze

end Verif.Time
