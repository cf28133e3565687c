import Verif.Model.TimeDomain

/-!
# The Hankel transforms with their arguments (empymod/transform.py)

`hankel_dlf` (52-119), `hankel_qwe` (122-419), `hankel_quad` (422-505), called with what `check_hankel`
returns, and `dipole` (model.py 663-922) with `ht` and `htarg`.  Parameters: Gauss rules, Bessel functions,
splines, `scipy.integrate.quad`.  Points that are not increasing, or fewer than four, make `iuSpline` raise;
its exceptions are `ValueError` here.  A division by zero (a `nan` in the code) compares false.  Not modelled: an
interpolation limit of zero (`int` of an infinite number, `OverflowError`; here `ValueError`).
-/

namespace Verif.Hank
open Verif.Py Verif.Py.W Verif.Args Verif.Transform Verif.Model Verif.Kernel Verif.Time Verif.Utils

/-- What the modelling routines run on: minima, arithmetic, `np.sqrt`, uninitialised memory; conversion of
arguments, filters of the library and default filter; library routines. -/
structure HBack where
  m : Mins
  o : Ops
  sqrt : ℂ → ℂ
  junk : ℕ → ℝ
  C : Conv
  lib : String → Option Val
  dflt : Val
  /-- `sp.special.roots_legendre(n)` -/
  gauss : ℕ → Waveform.Quad
  J0 : ℝ → ℝ
  J1 : ℝ → ℝ
  J2 : ℝ → ℝ
  R : RSpl
  /-- `sp.integrate.quad(f, a, b, full_output=1, epsabs, epsrel, limit)`: value, and length of what it returns -/
  quad : (ℝ → ℝ) → ℝ → ℝ → ℝ → ℝ → ℝ → ℝ × ℕ
  /-- `np.finfo(float).eps`; for the others see `QPar` -/
  eps : ℝ
  tiny : ℝ
  big : ℝ
  zero : ℂ → Bool

/-- Kernels as functions of wavenumber; whether a kernel is `None` does not depend on the wavenumber. -/
abbrev KFn := Option (ℝ → ℂ) × Option (ℝ → ℂ) × Option (ℝ → ℂ)

/-- A kernel that is given at every wavenumber, or at none. -/
def lift (g : ℝ → Option ℂ) : Option (ℝ → ℂ) := if (g 1).isSome then some fun l => (g l).getD 0 else none

/-- `kernel.wavenumber` as function of wavenumber. -/
noncomputable def kfn (o : Ops) (E : Earth) (zs zr : ℝ) (ls lr : ℤ) (abc : ℕ) (xd ms mr : Bool) : KFn :=
  (lift fun l => (wavenumber o E zs zr ls lr l abc xd ms mr).1,
   lift fun l => (wavenumber o E zs zr ls lr l abc xd ms mr).2.1,
   lift fun l => (wavenumber o E zs zr ls lr l abc xd ms mr).2.2)

/-! ## DLF -/

open Classical in
/-- `hankel_dlf` (transform.py 106-119) for one frequency. -/
noncomputable def dlfRow (H : HBack) (d : Dict) (K : KFn) (ab : ℕ) (offs : List (ℝ × ℝ)) :
    Except PyErr ((ℕ → ℂ) × Bool) := do
  let F ← (getDlf d).val
  let ppd ← (getNum "pts_per_dec" d).val
  let off := offs.map Prod.fst
  need (off ≠ [])
  if (K.1.isSome || K.2.1.isSome || K.2.2.isSome) = false then .error .unboundLocal
  else
    let lo := (off.min?).getD 0
    let hi := (off.max?).getD 0
    let out := fun i => off.getD i 0
    let at_ := fun (lam : ℕ → ℕ → ℝ) => (K.1.map fun f => fun i k => f (lam i k),
      K.2.1.map fun f => fun i k => f (lam i k), K.2.2.map fun f => fun i k => f (lam i k))
    if ppd = 0 then
      .ok (fun j => (dlfHankel H.R .standard F ⟨0, fun _ => 0, out, 0, fun _ => 0⟩
        (at_ fun i k => F.base k / out i) (some (offs.map Prod.snd)) ab j).getD 0, true)
    else if ppd < 0 then do
      let P := lagPoints F lo hi out
      need (LogOK P.m fun i => P.intp (P.m - 1 - i))
      .ok (fun j => (dlfHankel H.R .lagged F P (at_ fun _ k => P.points k) (some (offs.map Prod.snd)) ab j).getD 0, true)
    else do
      let P := splPoints F lo hi ppd out
      need (LogOK P.nout P.points)
      .ok (fun j => (dlfHankel H.R .splined F P (at_ fun _ k => P.points k) (some (offs.map Prod.snd)) ab j).getD 0, true)

/-! ## QWE -/

/-- Step of the Newton iteration (transform.py 207-212). -/
noncomputable def newtonStep (H : HBack) (b : ℝ) : ℝ := -H.J1 b / (H.J1 b / b - H.J2 b)

open Classical in
/-- Newton iteration for the first `n` zeros of `J1` (transform.py 203-219); `left` is the number of steps left. -/
noncomputable def newton (H : HBack) (n : ℕ) : ℕ → (ℕ → ℝ) → ℕ → ℝ
  | 0, b => b
  | left + 1, b =>
    let b' := fun i => b i + newtonStep H (b i)
    if ∀ i < n, |newtonStep H (b i)| < 8 * H.eps * b' i then b' else newton H n left b'

/-- `b_zero` (transform.py 200-219): ten steps from the asymptotic zeros. -/
noncomputable def bZero (H : HBack) (n : ℕ) : ℕ → ℝ := newton H n 10 fun i => Real.pi * (1.25 + i)

/-- `xint` (transform.py 224): the ends of the intervals, times the offset. -/
noncomputable def hInt (b : ℕ → ℝ) (i : ℕ) : ℝ := if i = 0 then 1e-20 else b (i - 1)

/-- Quadrature point `q` of interval `i`, times the offset (transform.py 227-228). -/
noncomputable def hBx (b : ℕ → ℝ) (Q : Waveform.Quad) (i q : ℕ) : ℝ :=
  (hInt b (i + 1) - hInt b i) / 2 * (Q.x q + 1) + hInt b i

/-- `getweights` (transform.py 1061-1063). -/
noncomputable def hWeight (b : ℕ → ℝ) (off : ℝ) (i : ℕ) : ℝ := (hInt b (i + 1) / off - hInt b i / off) / 2

/-- The three kernels at the quadrature points of interval `i`. -/
noncomputable def kerAt (K : KFn) (b : ℕ → ℝ) (Q : Waveform.Quad) (off : ℝ) (i : ℕ) :
    Option (ℕ → ℂ) × Option (ℕ → ℂ) × Option (ℕ → ℂ) :=
  (K.1.map fun f q => f (hBx b Q i q / off), K.2.1.map fun f q => f (hBx b Q i q / off),
    K.2.2.map fun f q => f (hBx b Q i q / off))

/-- Contribution of interval `i` without interpolation (transform.py 389-413, 1079-1089). -/
noncomputable def hTerm (H : HBack) (b : ℕ → ℝ) (Q : Waveform.Quad) (K : KFn) (ab : ℕ) (p : ℝ × ℝ) (i : ℕ) : ℂ :=
  qweKernel Q.n (kerAt K b Q p.1 i) ab p.1 p.2 (fun q => ((H.J0 (hBx b Q i q) * Q.w q : ℝ) : ℂ))
    (fun q => ((H.J1 (hBx b Q i q) * Q.w q : ℝ) : ℂ)) * (hWeight b p.1 i : ℂ)

/-- Contribution of interval `i` with interpolated kernels (transform.py 355-379, 1079-1089). -/
noncomputable def hTermSpl (H : HBack) (b : ℕ → ℝ) (Q : Waveform.Quad) (K : KFn) (ab : ℕ) (p : ℝ × ℝ) (i : ℕ) : ℂ :=
  qweSplined Q.n (kerAt K b Q p.1 i) ab p.1 p.2 (fun q => ((H.J0 (hBx b Q i q) * Q.w q : ℝ) : ℂ))
    (fun q => ((H.J1 (hBx b Q i q) * Q.w q : ℝ) : ℂ)) * (hWeight b p.1 i : ℂ)

/-- Interpolation of a kernel in the logarithm of wavenumber, real and imaginary part separately
(transform.py 267-286, 463-483). -/
noncomputable def interp (R : RSpl) (g : List ℝ) (f : ℝ → ℂ) : (ℝ → ℝ) × (ℝ → ℝ) :=
  (fun l => R g.length (fun i => Real.log (g.getD i 0)) (fun i => (f (g.getD i 0)).re) (Real.log l),
   fun l => R g.length (fun i => Real.log (g.getD i 0)) (fun i => (f (g.getD i 0)).im) (Real.log l))

/-- The value of an interpolated kernel. -/
noncomputable def interpC (R : RSpl) (g : List ℝ) (f : ℝ → ℂ) (l : ℝ) : ℂ := ⟨(interp R g f).1 l, (interp R g f).2 l⟩

/-- The three kernels, interpolated. -/
noncomputable def interpK (R : RSpl) (g : List ℝ) (K : KFn) : KFn :=
  (K.1.map (interpC R g), K.2.1.map (interpC R g), K.2.2.map (interpC R g))

/-- Sum of the kernels that are used (transform.py 314-329). -/
noncomputable def kerSum (K : KFn) (l : ℝ) : ℂ :=
  (K.1.map fun f => f l).getD 0 + (K.2.1.map fun f => f l).getD 0 + (K.2.2.map fun f => f l).getD 0

open Classical in
/-- `doqwe` (transform.py 309-331) for one offset. -/
noncomputable def doQweH (b : ℕ → ℝ) (maxint : ℕ) (dq : ℝ) (K : KFn) (off : ℝ) : Bool :=
  decide (∀ i < maxint, ‖kerSum K (hInt b (i + 1) / off)‖ ≠ 0 ∧
    ‖kerSum K (hInt b i / off)‖ / ‖kerSum K (hInt b (i + 1) / off)‖ < dq)

/-- All wavenumbers (transform.py 235-236). -/
noncomputable def allLam (b : ℕ → ℝ) (Q : Waveform.Quad) (maxint : ℕ) (offs : List (ℝ × ℝ)) : List ℝ :=
  offs.flatMap fun p => (List.range maxint).flatMap fun i => (List.range Q.n).map fun q => hBx b Q i q / p.1

/-- `np.logspace(a, b, int((b-a)*ppd + 1))` with logarithms to base 10 of `x` and `y` (transform.py 244-251, 445-447). -/
noncomputable def lamGrid (x y ppd : ℝ) : Except PyErr (List ℝ) :=
  (logspace (Real.logb 10 x) (Real.logb 10 y) (Tem.trunc ((Real.logb 10 y - Real.logb 10 x) * ppd + 1))).val

/-- `quad` (transform.py 1136-1197) on interpolated kernels. -/
noncomputable def quadAt (H : HBack) (g : List ℝ) (K : KFn) (ab : ℕ) (a b atol rtol limit : ℝ) (p : ℝ × ℝ) : ℂ × Bool :=
  Transform.quad (fun f => H.quad f a b atol rtol limit) H.J0 H.J1 (K.1.map (interp H.R g)) (K.2.1.map (interp H.R g))
    (K.2.2.map (interp H.R g)) ab p.1 p.2

open Classical in
/-- `hankel_qwe` (transform.py 174-419) for one frequency.  The spline for `start` and `stop` of no extent is
among the exceptions. -/
noncomputable def qweRow (H : HBack) (d : Dict) (K : KFn) (ab : ℕ) (offs : List (ℝ × ℝ)) :
    Except PyErr ((ℕ → ℂ) × Bool) := do
  let rtol ← (getNum "rtol" d).val
  let atol ← (getNum "atol" d).val
  let nq ← (getNum "nquad" d).val
  let mx ← (getNum "maxint" d).val
  let ppd ← (getNum "pts_per_dec" d).val
  need (1 ≤ nq ∧ 1 ≤ mx ∧ offs ≠ [])
  let Q := H.gauss ⌊nq⌋₊
  let maxint := ⌊mx⌋₊
  let b := bZero H maxint
  let par : QPar := ⟨rtol, atol, H.tiny, H.big, H.zero⟩
  if ppd = 0 then
    match qwe par maxint offs.length fun j i => hTerm H b Q K ab (offs.getD j (0, 0)) i with
    | none => .error .unboundLocal
    | some r => .ok (r.1, r.2.2)
  else do
    let lam := allLam b Q maxint offs
    let g ← lamGrid (lam.min?.getD 0) (lam.max?.getD 0) ppd
    need (LogOK g.length fun i => g.getD i 0)
    let dq ← (getNum "diff_quad" d).val
    let a ← getOpt "a" d
    let e ← getOpt "b" d
    let limit ← getOpt "limit" d
    let S := interpK H.R g K
    let good := offs.filter fun p => doQweH b maxint dq S p.1
    let bad := offs.filter fun p => !doQweH b maxint dq S p.1
    if good ≠ [] ∧ maxint ≤ 1 then .error .unboundLocal
    else
      let q := (qwe par maxint good.length fun j i => hTermSpl H b Q S ab (good.getD j (0, 0)) i).getD
        (fun _ => 0, 0, true)
      let qd := fun p : ℝ × ℝ => quadAt H g K ab (a.getD (hInt b 0 / p.1)) (e.getD (hInt b maxint / p.1)) atol rtol
        (limit.getD mx) p
      .ok (fun j =>
          let p := offs.getD j (0, 0)
          if doQweH b maxint dq S p.1 then q.1 ((offs.take j).filter fun p => doQweH b maxint dq S p.1).length
          else (qd p).1,
        bad.all (fun p => (qd p).2) && (good.isEmpty || q.2.2))

/-! ## QUAD -/

/-- `hankel_quad` (transform.py 444-505) for one frequency. -/
noncomputable def quadRow (H : HBack) (d : Dict) (K : KFn) (ab : ℕ) (offs : List (ℝ × ℝ)) :
    Except PyErr ((ℕ → ℂ) × Bool) := do
  let a ← (getNum "a" d).val
  let b ← (getNum "b" d).val
  let ppd ← (getNum "pts_per_dec" d).val
  need (0 < a ∧ 0 < b)
  let g ← lamGrid a b ppd
  need (LogOK g.length fun i => g.getD i 0)
  let atol ← (getNum "atol" d).val
  let rtol ← (getNum "rtol" d).val
  let limit ← (getNum "limit" d).val
  .ok (fun j => (quadAt H g K ab a b atol rtol limit (offs.getD j (0, 0))).1,
    offs.all fun p => (quadAt H g K ab a b atol rtol limit p).2)

/-- `getattr(transform, 'hankel_'+ht)` (model.py 1641) for one frequency. -/
noncomputable def hankelRow (H : HBack) (ht : String) (d : Dict) (K : KFn) (ab : ℕ) (offs : List (ℝ × ℝ)) :
    Except PyErr ((ℕ → ℂ) × Bool) :=
  if ht = "dlf" then dlfRow H d K ab offs
  else if ht = "qwe" then qweRow H d K ab offs
  else if ht = "quad" then quadRow H d K ab offs
  else .error .attributeError

/-! ## `dipole` -/

open Classical in
/-- What is raised for one frequency (model.py 1645-1649, `fEM[None, i, :] += out[0]`): an exception of the transform, or
`TypeError` if a complex array has to be added to a real one in place.  `fEM` has the type of `etaH` (model.py
1612), which is real if no frequency is positive (utils.py 497-519); the results of QWE and QUAD are always complex
(transform.py 332, 402, 488), those of DLF have the type of the kernels. -/
noncomputable def rowErr (H : HBack) (ht : String) (d : Dict) (freq : List ℝ) (K : KFn) (ab : ℕ) (offs : List (ℝ × ℝ)) :
    Option PyErr :=
  match errOf (hankelRow H ht d K ab offs) with
  | some e => some e
  | none => if (ht = "qwe" ∨ ht = "quad") ∧ ∀ f ∈ freq, f ≤ 0 then some .typeError else none

/-- Points per decade in the checked arguments, for `check_loop`. -/
def ppdOf (d : Dict) : ℝ :=
  match d.lookup "pts_per_dec" with
  | some (.num x) => x
  | _ => 0

/-- The transform as `fem` uses it; where it raises its values do not matter. -/
noncomputable def backOf (H : HBack) (ht : String) (d : Dict) : Back where
  m := H.m
  o := H.o
  sqrt := H.sqrt
  ht := ht
  ptsPerDec := ppdOf d
  hank := fun zs zr ls lr abc ms mr xd rows offs =>
    { val := fun i j =>
        match rows[i]? with
        | none => 0
        | some E => (okOr (fun _ => 0, true) (hankelRow H ht d (kfn H.o E zs zr ls lr abc xd ms mr) abc offs)).1 j
      kcount := 1
      conv := rows.all fun E =>
        (okOr (fun _ => 0, true) (hankelRow H ht d (kfn H.o E zs zr ls lr abc xd ms mr) abc offs)).2 }
  junk := H.junk

/-- `dipole` (model.py 852-922) with `ht` and `htarg`, without the final squeeze.  `calc` is looked up first (model.py
1641); then the first frequency whose transform raises decides (an exception of the standard DLF depends neither
on frequency nor on offset, whatever the loop). -/
noncomputable def dipoleHFull (H : HBack) (A : DipoleArgs) (ht : String) (htarg : Dict) (post : Post) : W NdArray := do
  let mo ← checkModel H.m A.depth A.res A.aniso A.epermH A.epermV A.mpermH A.mpermV A.xdirect A.verb
  let fo ← checkFrequency H.m A.freq mo.res mo.aniso mo.epermH mo.epermV mo.mpermH mo.mpermV A.verb
  let h ← Verb.checkHankel H.C H.lib H.dflt ht htarg A.verb
  let B := backOf H h.1 h.2
  let lp := checkLoop A.loop B.ht B.ptsPerDec
  let c ← ofExcept (checkAb A.ab)
  let src ← ofExcept (checkDipole A.src)
  let rcv ← ofExcept (checkDipole A.rcv)
  let nsrc := src.1.length
  let nrec := rcv.1.length
  let oa := getOffAng H.m (src.1.getD · 0) (src.2.1.getD · 0) (rcv.1.getD · 0) (rcv.2.1.getD · 0)
    nsrc nrec H.junk H.junk
  let lsrc := layerOf mo.depth src.2.2
  let lrec := layerOf mo.depth rcv.2.2
  let rows := rowsOf mo.depth fo
  let full := fun i j => (Fullspace.fullspace H.sqrt (rows.map (medAt lrec)) (oa.1 j) (oa.2 j) src.2.2
    rcv.2.2 c.1 c.2.1 c.2.2).getD i 0
  let offs := (List.range (nsrc * nrec)).map fun k => (oa.1 k, oa.2 k)
  let xd := A.xdirect.getD true
  let err := if c.1 = 36 ∨ (mo.isfullspace && xd) = true then none
    else if h.1 ∉ ["dlf", "qwe", "quad"] then some .attributeError
    else rows.findSome? fun E => rowErr H h.1 h.2 A.freq (kfn H.o E src.2.2 rcv.2.2 lsrc lrec c.1 xd c.2.1 c.2.2) c.1
      (offs.map fun p => (p.1, angleFactor p.2 c.1 c.2.1 c.2.2))
  match err with
  | some e => raise e
  | none => do
    let out := fem (B.hank src.2.2 rcv.2.2 lsrc lrec c.1 c.2.1 c.2.2) full c.1 offs rows (lsrc == lrec) A.xdirect
      mo.isfullspace c.2.1 c.2.2 lp.1 lp.2 true
    say (A.verb > 0 ∧ out.conv = false) "* WARNING :: Hankel-quadrature did not converge at least once"
    let EM ← post fo.freq (nrec * nsrc) out.val
    if nrec * nsrc = 0 then raise .valueError
    else pure (reshapeF EM.1 nrec nsrc EM.2)

/-- `dipole` (model.py 663-922) in the frequency domain with `ht` and `htarg`. -/
noncomputable def dipoleH (H : HBack) (A : DipoleArgs) (ht : String) (htarg : Dict) : W NdArray := do
  let EM ← dipoleHFull H A ht htarg inFreq
  pure (if A.squeeze then EM.squeeze else EM)

end Verif.Hank
