import Verif.Model.Fullspace
import Verif.Model.Py
import Mathlib.MeasureTheory.Integral.Bochner.Basic
import Mathlib.MeasureTheory.Measure.Lebesgue.Basic
import Mathlib.Analysis.SpecialFunctions.Pow.Real
import Mathlib.Analysis.SpecialFunctions.Log.Basic

/-!
# Model of `kernel.halfspace` (empymod/kernel.py 932-1240) and `check_solution` (utils.py 1468-1509)

The arrays are processed element-wise in (frequency/time, offset); the model computes one element.
The exception is the switch-off signal, for which the code appends the time `1e4` and subtracts.

The exponentially scaled Bessel functions `sp.special.ive`, `sp.special.kve` are parameters;
`sp.special.erfc` is the integral it denotes.  Real and complex numbers are kept apart: all
coefficients are real, the diffusion functions are complex for `signal=None` and real otherwise.
-/

namespace Verif.Halfspace
open Verif.Kernel Verif.Py

/-- `sp.special.ive(nr, x)`, `sp.special.kve(nr, x)`. -/
structure Bessel where
  ive : ℕ → ℂ → ℂ
  kve : ℕ → ℂ → ℂ

/-- `sp.special.erfc`. -/
noncomputable def erfc (x : ℝ) : ℝ :=
  2 / Real.sqrt Real.pi * ∫ u in Set.Ioi x, Real.exp (-u ^ 2)

/-- `mu_0 = 4e-7*np.pi` (kernel.py 979). -/
noncomputable def mu0 : ℝ := 4e-7 * Real.pi

/-- What `halfspace` needs to know about position and medium (kernel.py 952-955): `res` and `aniso`
are computed by `medium`. -/
structure Pos where
  off : ℝ
  angle : ℝ
  zsrc : ℝ
  zrec : ℝ
  res : ℝ
  aniso : ℝ

/-- Lines 954-955 of kernel.py: `res = np.real(1/etaH[0, 0])`,
`aniso = 1/np.sqrt(np.real(etaV[0, 0])*res)`: first frequency, first layer. -/
noncomputable def medium (etaH00 etaV00 : ℂ) : ℝ × ℝ :=
  let res := (1 / etaH00).re
  (res, 1 / Real.sqrt (etaV00.re * res))

namespace Pos
variable (p : Pos)
/-- kernel.py 952. -/
noncomputable def xco : ℝ := Real.cos p.angle * p.off
/-- kernel.py 953. -/
noncomputable def yco : ℝ := Real.sin p.angle * p.off
/-- kernel.py 969. -/
noncomputable def rh : ℝ := Real.sqrt (p.xco ^ 2 + p.yco ^ 2)
/-- kernel.py 970. -/
noncomputable def hp : ℝ := |p.zrec + p.zsrc|
/-- kernel.py 971. -/
noncomputable def hm : ℝ := |p.zrec - p.zsrc|
/-- kernel.py 972. -/
noncomputable def hsp : ℝ := p.hp * p.aniso
/-- kernel.py 973. -/
noncomputable def hsm : ℝ := p.hm * p.aniso
/-- kernel.py 974. -/
noncomputable def rp : ℝ := Real.sqrt (p.xco ^ 2 + p.yco ^ 2 + p.hp ^ 2)
/-- kernel.py 975. -/
noncomputable def rm : ℝ := Real.sqrt (p.xco ^ 2 + p.yco ^ 2 + p.hm ^ 2)
/-- kernel.py 976. -/
noncomputable def rsp : ℝ := Real.sqrt (p.xco ^ 2 + p.yco ^ 2 + p.hsp ^ 2)
/-- kernel.py 977. -/
noncomputable def rsm : ℝ := Real.sqrt (p.xco ^ 2 + p.yco ^ 2 + p.hsm ^ 2)
/-- kernel.py 980. -/
noncomputable def tp : ℝ := mu0 * p.rp ^ 2 / (p.res * 4)
/-- kernel.py 981. -/
noncomputable def tm : ℝ := mu0 * p.rm ^ 2 / (p.res * 4)
/-- kernel.py 982. -/
noncomputable def tsp : ℝ := mu0 * p.rsp ^ 2 / (p.res * p.aniso ^ 2 * 4)
/-- kernel.py 983. -/
noncomputable def tsm : ℝ := mu0 * p.rsm ^ 2 / (p.res * p.aniso ^ 2 * 4)
end Pos

/-- `delta` (kernel.py 986-989). -/
def delta (ab : ℕ) : ℝ := if ab ∈ [11, 22, 33] then 1 else 0

/-- `x, y` after the swaps (kernel.py 992-999). -/
noncomputable def xy (p : Pos) (ab : ℕ) : ℝ × ℝ :=
  if ab = 11 then (p.xco, p.xco)
  else if ab ∈ [22, 23, 32] then (p.yco, p.yco)
  else if ab = 21 then (p.yco, p.xco)
  else (p.xco, p.yco)

/-- `rev` (kernel.py 1002-1005); only used for the components for which it is assigned. -/
def rev (ab : ℕ) : ℝ := if ab ∈ [13, 23] then -1 else 1

/-- The three diffusion functions of one distance. -/
structure F3 (K : Type) where
  f0 : K
  f1 : K
  f2 : K

/-- Frequency domain (kernel.py 1009-1023), for one diffusion time. -/
noncomputable def fFreq (sval : ℂ) (t : ℝ) : F3 ℂ :=
  let f0 := Complex.exp (-2 * csqrt (sval * t))
  ⟨f0, csqrt sval * f0, sval * f0⟩

/-- Step response (kernel.py 1025-1040), for one diffusion time. -/
noncomputable def fStep (time t : ℝ) : F3 ℝ :=
  let f1 := Real.exp (-t / time) / Real.sqrt (Real.pi * time)
  ⟨erfc (Real.sqrt (t / time)), f1, f1 * Real.sqrt t / time⟩

/-- Impulse response (kernel.py 1042-1056), for one diffusion time. -/
noncomputable def fImp (time t : ℝ) : F3 ℝ :=
  let f0 := Real.sqrt (t / (Real.pi * time ^ 3)) * Real.exp (-t / time)
  ⟨f0, (t / time - 0.5) / Real.sqrt t * f0, (t / time - 1.5) / time * f0⟩

/-- The coefficients of `halfspace` (kernel.py 1059-1069). -/
structure Coeffs where
  gs0m : ℝ := 0
  gs0p : ℝ := 0
  gs1m : ℝ := 0
  gs1p : ℝ := 0
  gs2m : ℝ := 0
  gs2p : ℝ := 0
  g0p : ℝ := 0
  g1m : ℝ := 0
  g1p : ℝ := 0
  g2m : ℝ := 0
  g2p : ℝ := 0

/-- `fab` (kernel.py 1080). -/
noncomputable def fab (p : Pos) (ab : ℕ) : ℝ :=
  p.rh ^ 2 * delta ab - (xy p ab).1 * (xy p ab).2

open Classical in
/-- Coefficients of the horizontal components (kernel.py 1072-1116).  The regular values are
assigned where `rh ≠ 0`; where `rh = 0` and `hm ≠ 0` the limits are assigned; else they stay 0. -/
noncomputable def coeffsH (p : Pos) (ab : ℕ) : Coeffs :=
  let x := (xy p ab).1
  let y := (xy p ab).2
  let d := delta ab
  let f := fab p ab
  let pick (a b : ℝ) : ℝ := if p.rh ≠ 0 then a else if p.hm ≠ 0 then b else 0
  let smr := Real.sqrt (mu0 * p.res)
  let pi := Real.pi
  let g1m := pick (smr * (x * y - f) / (4 * pi * p.rh ^ 4)) 0
  { gs0p := p.res * p.aniso * (3 * x * y - p.rsp ^ 2 * d) / (4 * pi * p.rsp ^ 5)
    gs0m := p.res * p.aniso * (3 * x * y - p.rsm ^ 2 * d) / (4 * pi * p.rsm ^ 5)
    gs1p := pick (((3 * x * y - p.rsp ^ 2 * d) / p.rsp ^ 4 - (x * y - f) / p.rh ^ 4) *
      smr / (4 * pi)) (-smr * d / (4 * pi * p.hsp ^ 2))
    gs1m := pick (((3 * x * y - p.rsm ^ 2 * d) / p.rsm ^ 4 - (x * y - f) / p.rh ^ 4) *
      smr / (4 * pi)) (-smr * d / (4 * pi * p.hsm ^ 2))
    gs2p := pick (mu0 * x * y / (4 * pi * p.aniso * p.rsp) * (1 / p.rsp ^ 2 - 1 / p.rh ^ 2))
      (-mu0 * d / (8 * pi * p.aniso * p.hsp))
    gs2m := pick (mu0 * x * y / (4 * pi * p.aniso * p.rsm) * (1 / p.rsm ^ 2 - 1 / p.rh ^ 2))
      (-mu0 * d / (8 * pi * p.aniso * p.hsm))
    g0p := p.res * (3 * f - p.rp ^ 2 * d) / (2 * pi * p.rp ^ 5)
    g1m := g1m
    g1p := pick (g1m + smr * (3 * f - p.rp ^ 2 * d) / (2 * pi * p.rp ^ 4))
      (-smr * d / (2 * pi * p.hp ^ 2))
    g2p := pick (mu0 * f / (4 * pi * p.rp) * (2 / p.rp ^ 2 - 1 / p.rh ^ 2))
      (mu0 * d / (8 * pi * p.hp))
    g2m := pick (-mu0 * f / (4 * pi * p.rh ^ 2 * p.rm)) (mu0 * d / (8 * pi * p.hm)) }

/-- Coefficients of 13, 23, 31, 32 (kernel.py 1191-1199). -/
noncomputable def coeffsHV (p : Pos) (ab : ℕ) : Coeffs :=
  let x := (xy p ab).1
  let smr := Real.sqrt (mu0 * p.res)
  let pi := Real.pi
  let dz := p.zrec - p.zsrc
  { gs0m := 3 * x * p.res * p.aniso ^ 3 * dz / (4 * pi * p.rsm ^ 5)
    gs0p := rev ab * 3 * x * p.res * p.aniso ^ 3 * p.hp / (4 * pi * p.rsp ^ 5)
    gs1m := smr * 3 * p.aniso ^ 2 * x * dz / (4 * pi * p.rsm ^ 4)
    gs1p := rev ab * smr * 3 * p.aniso ^ 2 * x * p.hp / (4 * pi * p.rsp ^ 4)
    gs2m := mu0 * x * p.aniso * dz / (4 * pi * p.rsm ^ 3)
    gs2p := rev ab * mu0 * x * p.aniso * p.hp / (4 * pi * p.rsp ^ 3) }

/-- Coefficients of 33 (kernel.py 1201-1208). -/
noncomputable def coeffsV (p : Pos) : Coeffs :=
  let smr := Real.sqrt (mu0 * p.res)
  let pi := Real.pi
  { gs0m := p.res * p.aniso ^ 3 * (3 * p.hsm ^ 2 - p.rsm ^ 2) / (4 * pi * p.rsm ^ 5)
    gs0p := -p.res * p.aniso ^ 3 * (3 * p.hsp ^ 2 - p.rsp ^ 2) / (4 * pi * p.rsp ^ 5)
    gs1m := smr * p.aniso ^ 2 * (3 * p.hsm ^ 2 - p.rsm ^ 2) / (4 * pi * p.rsm ^ 4)
    gs1p := -smr * p.aniso ^ 2 * (3 * p.hsp ^ 2 - p.rsp ^ 2) / (4 * pi * p.rsp ^ 4)
    gs2m := mu0 * p.aniso * (p.hsm ^ 2 - p.rsm ^ 2) / (4 * pi * p.rsm ^ 3)
    gs2p := -mu0 * p.aniso * (p.hsp ^ 2 - p.rsp ^ 2) / (4 * pi * p.rsp ^ 3) }

/-- The three branches over `ab` (kernel.py 1072, 1191, 1201); otherwise all coefficients are 0. -/
noncomputable def coeffs (p : Pos) (ab : ℕ) : Coeffs :=
  if ab ∈ [11, 12, 21, 22] then coeffsH p ab
  else if ab ∈ [13, 23, 31, 32] then coeffsHV p ab
  else if ab = 33 then coeffsV p
  else {}

/-- `airwave` with its `BI`, `BK` (kernel.py 1119-1156), for a real or complex `sval`.  For real
`sval` the factor `exp(-1j*imag(xip))`, which the code leaves out, is 1. -/
noncomputable def airwave (B : Bessel) (p : Pos) (ab : ℕ) (sval : ℂ) : ℂ :=
  let zeta := sval * mu0
  let gamH := csqrt (zeta / p.res)
  let xip := gamH * (p.rp + p.hp) / 2
  let xim := gamH * (p.rp - p.hp) / 2
  let BI (n : ℕ) : ℂ := Complex.exp (-gamH.re * p.hp) * B.ive n xim
  let BK (n : ℕ) : ℂ := Complex.exp (-Complex.I * xip.im) * B.kve n xip
  let sr : ℂ := (Real.sqrt p.res : ℝ)
  let f : ℂ := fab p ab
  let P1 := (sval * mu0) ^ (3 / 2 : ℂ) * f * p.hp / (4 * sr)
  let P2 := 4 * BI 1 * BK 0 - (3 * BI 0 - 4 * sr * BI 1 / (csqrt (sval * mu0) * (p.rp + p.hp)) +
    BI 2) * BK 1
  let P3 := 3 * f / p.rp ^ 2 - delta ab
  let P4 := sval * mu0 * p.hp * p.rp * (BI 0 * BK 0 - BI 1 * BK 1) +
    csqrt (p.res * sval * mu0) * BI 0 * BK 1 * (p.rp + p.hp) +
    csqrt (p.res * sval * mu0) * BI 1 * BK 0 * (p.rp - p.hp)
  (P1 * P2 - P3 * P4) / (4 * Real.pi * p.rp ^ 3)

/-- `coeff_dk(k, 16)` (kernel.py 1168-1174). -/
noncomputable def coeffDk (k : ℕ) : ℝ :=
  (((List.range (min k 8 + 1 - (k + 1) / 2)).map fun i : ℕ =>
    let n := (k + 1) / 2 + i
    (n : ℝ) ^ 8 * (2 * n).factorial / n.factorial / ((n - 1).factorial * (k - n).factorial) /
      ((2 * n - k).factorial * (8 - n).factorial)).sum) * (-1) ^ (k + 8)

/-- Gaver-Stehfest sum for the step response of the airwave (kernel.py 1176-1179). -/
noncomputable def airStep (B : Bessel) (p : Pos) (ab : ℕ) (time : ℝ) : ℝ :=
  ((List.range 16).map fun i : ℕ =>
    let k := i + 1
    let sval : ℝ := k * Real.log 2 / time
    coeffDk k * (airwave B p ab sval).re / k).sum

/-- Impulse response of the airwave (kernel.py 1181-1189). -/
noncomputable def airImp (B : Bessel) (p : Pos) (ab : ℕ) (time : ℝ) : ℝ :=
  let x := (xy p ab).1
  let y := (xy p ab).2
  let thp := mu0 * p.hp ^ 2 / (4 * p.res)
  let trh := mu0 * p.rh ^ 2 / (8 * p.res)
  let P1 := mu0 ^ 2 * p.hp * Real.exp (-thp / time) / (p.res * 32 * Real.pi * time ^ 3)
  let P2 := 2 * (delta ab - x * y / p.rh ^ 2) * (B.ive 1 ((trh / time : ℝ) : ℂ)).re
  let P3 := mu0 / (2 * p.res * time) * (p.rh ^ 2 * delta ab - x * y) - delta ab
  let P4 := (B.ive 0 ((trh / time : ℝ) : ℂ)).re - (B.ive 1 ((trh / time : ℝ) : ℂ)).re
  P1 * (P2 - P3 * P4)

/-- Lines 1210-1218 of kernel.py: the seven partial results. -/
structure Parts (K : Type) where
  directTM : K
  directTE : K
  direct : K
  reflectTM : K
  reflectTE : K
  reflect : K
  air : K

/-- The sums of lines 1210-1218 of kernel.py, for real coefficients and diffusion functions of the
distances rsm, rm (m) and rsp, rp (p). -/
noncomputable def parts {K : Type} [AddCommGroup K] [Module ℝ K] (g : Coeffs)
    (fsm fm fsp fp : F3 K) (air : K) : Parts K :=
  let directTM := g.gs0m • fsm.f0 + g.gs1m • fsm.f1 + g.gs2m • fsm.f2
  let directTE := g.g1m • fm.f1 + g.g2m • fm.f2
  let reflectTM := g.gs0p • fsp.f0 + g.gs1p • fsp.f1 + g.gs2p • fsp.f2
  let reflectTE := g.g0p • fp.f0 + g.g1p • fp.f1 + g.g2p • fp.f2
  ⟨directTM, directTE, directTM + directTE, reflectTM, reflectTE, reflectTM + reflectTE, air⟩

/-- All parts in the frequency domain, `signal=None`. -/
noncomputable def partsFreq (B : Bessel) (p : Pos) (ab : ℕ) (sval : ℂ) : Parts ℂ :=
  parts (coeffs p ab) (fFreq sval p.tsm) (fFreq sval p.tm) (fFreq sval p.tsp) (fFreq sval p.tp)
    (if ab ∈ [11, 12, 21, 22] then airwave B p ab sval else 0)

/-- All parts in the time domain before the switch-off branch; `step` is `abs(signal) == 1`. -/
noncomputable def partsTime (B : Bessel) (p : Pos) (ab : ℕ) (step : Bool) (time : ℝ) : Parts ℝ :=
  let f := if step then fStep else fImp
  parts (coeffs p ab) (f time p.tsm) (f time p.tm) (f time p.tsp) (f time p.tp)
    (if ab ∈ [11, 12, 21, 22] then (if step then airStep else airImp) B p ab time else 0)

/-- Switch-off (kernel.py 1220-1230): last entry (time 1e4) minus the others. -/
def Parts.sub {K : Type} [Sub K] (a b : Parts K) : Parts K :=
  ⟨a.directTM - b.directTM, a.directTE - b.directTE, a.direct - b.direct,
   a.reflectTM - b.reflectTM, a.reflectTE - b.reflectTE, a.reflect - b.reflect, a.air - b.air⟩

/-- What `halfspace` returns. -/
inductive Out (K : Type) where
  | whole (v : K)
  | split (direct reflect air : K)
  | tetm (directTE directTM reflectTE reflectTM air : K)

/-- The return statements (kernel.py 1232-1240). -/
def Parts.out {K : Type} [Add K] (q : Parts K) (solution : String) : Out K :=
  if solution = "dfs" then .whole q.direct
  else if solution = "dsplit" then .split q.direct q.reflect q.air
  else if solution = "dtetm" then .tetm q.directTE q.directTM q.reflectTE q.reflectTM q.air
  else .whole (q.direct + q.reflect + q.air)

/-- `halfspace` with `signal=None`. -/
noncomputable def halfspaceFreq (B : Bessel) (p : Pos) (ab : ℕ) (solution : String) (sval : ℂ) :
    Out ℂ :=
  (partsFreq B p ab sval).out solution

/-- `halfspace` with a `signal` (kernel.py 957-966, 1009-1240). -/
noncomputable def halfspaceTime (B : Bessel) (p : Pos) (ab : ℕ) (signal : ℤ) (solution : String)
    (time : ℝ) : Out ℝ :=
  let step := decide (|signal| = 1)
  if signal = -1 then
    ((partsTime B p ab step 1e4).sub (partsTime B p ab step time)).out solution
  else (partsTime B p ab step time).out solution

/-- `check_solution` (utils.py 1491-1509). -/
def checkSolution (solution : String) (signal : Option ℤ) (msrc mrec : Bool) : Except PyErr Unit :=
  if solution ∉ ["fs", "dfs", "dhs", "dsplit", "dtetm"] then .error .valueError
  else if solution.toList.head? = some 'd' ∧ (msrc = true ∨ mrec = true) then .error .valueError
  else if solution = "fs" ∧ signal.isSome = true then .error .valueError
  else .ok ()

/-- What `analytical` (model.py 944-1195) has computed when it reaches `check_solution`: offsets and
angles (index `isrc*nrec + irec`), depths, the medium per frequency, the Laplace parameters of the
frequencies (`2j*np.pi*freq` or `freq`), the times. -/
structure Setup where
  off : ℕ → ℝ
  angle : ℕ → ℝ
  nrec : ℕ
  zsrc : ℝ
  zrec : ℝ
  med0 : Fullspace.Med
  meds : List Fullspace.Med
  sval : ℕ → ℂ
  time : ℕ → ℝ

/-- What `analytical` returns, as a function of (ifreq or itime, irec, isrc).  For the tuples
(`dsplit`, `dtetm`) the code returns a tuple of arrays, here an array of tuples. -/
inductive Analytical where
  | freq (f : ℕ → ℕ → ℕ → Out ℂ)
  | time (f : ℕ → ℕ → ℕ → Out ℝ)

/-- Position and medium of entry `j` (model.py 1164-1165 and kernel.py 952-955). -/
noncomputable def Setup.pos (a : Setup) (j : ℕ) : Pos :=
  ⟨a.off j, a.angle j, a.zsrc, a.zrec, (medium a.med0.etaH a.med0.etaV).1,
   (medium a.med0.etaH a.med0.etaV).2⟩

/-- Lines 1152-1188 of model.py.  `isList` says that the frequencies were given as a Python list:
then `freqtime > 0` raises TypeError.  The reshape with `order='F'` puts entry `isrc*nrec + irec` to
`[irec, isrc]`. -/
noncomputable def analytical (B : Bessel) (sqrt : ℂ → ℂ) (a : Setup) (solution : String)
    (signal : Option ℤ) (isList : Bool) (ab : ℕ) (msrc mrec : Bool) : Except PyErr Analytical :=
  match checkSolution solution signal msrc mrec with
  | .error e => .error e
  | .ok () =>
    if solution.toList.head? = some 'd' then
      match signal with
      | none =>
        if isList then .error .typeError
        else .ok (.freq fun i r s => halfspaceFreq B (a.pos (s * a.nrec + r)) ab solution (a.sval i))
      | some g =>
        .ok (.time fun i r s => halfspaceTime B (a.pos (s * a.nrec + r)) ab g solution (a.time i))
    else
      .ok (.freq fun i r s => .whole
        (if ab ≠ 36 then (Fullspace.fullspace sqrt (a.med0 :: a.meds) (a.off (s * a.nrec + r))
          (a.angle (s * a.nrec + r)) a.zsrc a.zrec ab msrc mrec).getD i 0 else 0))

end Verif.Halfspace
