import Verif.Model.Bipole
import Verif.Model.CheckAb
import Verif.Model.Fem
import Verif.Model.Fullspace

/-!
# Model of `dipole` (model.py 663-922, frequency domain) and `ip_and_q` (model.py 1490-1592)

The checks, the geometry, `fem` and the kernels are the models of the other files; here they are put
together in the order of the code.  Parameters: the minima, the arithmetic, `np.sqrt`, the contents
of `np.empty`, and the Hankel transform with its (checked) arguments.  Functions inside a `res`
dictionary are in `Verif.Model.Hooks`.  Not modelled: `bandpass`, the time and kernel-count message.  The time domain (`signal`) is in
`Verif.Model.TimeDomain`.
-/

namespace Verif.Model
open Verif.Py Verif.Py.W Verif.Utils Verif.Kernel

/-- Arguments of `dipole` (model.py 663-665, 830-837); every coordinate and parameter as the 1-D array
`np.atleast_1d` makes of it, `none` is Python's `None`.  `rcv` is `rec`, which Lean reserves. -/
structure DipoleArgs where
  src : List (List ℝ)
  rcv : List (List ℝ)
  depth : Option (List EReal)
  res : ResArg
  freq : List ℝ
  ab : AbArg
  aniso : Option (List ℝ)
  epermH : Option (List ℝ)
  epermV : Option (List ℝ)
  mpermH : Option (List ℝ)
  mpermV : Option (List ℝ)
  xdirect : Option Bool
  loop : Option String
  squeeze : Bool
  verb : ℤ

/-- What `dipole` runs on: minima (utils.py 64-69), arithmetic, `np.sqrt`, Hankel transform `ht` with
its points per decade, `hank zsrc zrec lsrc lrec ab msrc mrec` (model.py 1641: `getattr(transform,
'hankel_'+ht)`), contents of uninitialised memory.  The results of the transform are taken to have the type of `etaH`
(they are added to `fEM` in place, model.py 1612, 1645-1649): always so for DLF; for QWE and QUAD only if a frequency is
positive, see `Hank.rowErr`. -/
structure Back where
  m : Mins
  o : Ops
  sqrt : ℂ → ℂ
  ht : String
  ptsPerDec : ℝ
  hank : ℝ → ℝ → ℕ → ℕ → ℕ → Bool → Bool → Calc Earth
  junk : ℕ → ℝ

/-- Element `i` of an array, `d` if there is none (never used by the kernel). -/
def entry {α : Type} (l : List α) (d : α) (i : ℤ) : α := if 0 ≤ i then l.getD i.toNat d else d

/-- The layer arrays of one frequency (model.py 1641-1651: `depth`, `etaH[None, i, :]`, ...). -/
noncomputable def rowEarth (depth : List EReal) (eH eV zH zV : List ℂ) : Earth :=
  ⟨depth.length, entry depth 0, entry eH 0, entry eV 0, entry zH 0, entry zV 0⟩

/-- The rows of `etaH`, `etaV`, `zetaH`, `zetaV`. -/
noncomputable def rowsOf (depth : List EReal) (fo : FreqOut) : List Earth :=
  (List.range fo.freq.length).map fun i =>
    rowEarth depth (fo.etaH.getD i []) (fo.etaV.getD i []) (fo.zetaH.getD i []) (fo.zetaV.getD i [])

/-- A result without output. -/
def ofExcept {α : Type} (x : Except PyErr α) : W α := ⟨x, []⟩

/-- Column `lrec` of the four arrays (model.py 1624-1626). -/
def medAt (lrec : ℕ) (E : Earth) : Fullspace.Med :=
  ⟨E.etaH lrec, E.etaV lrec, E.zetaH lrec, E.zetaV lrec⟩

/-- `EM.reshape((-1, nrec, nsrc), order='F')` (model.py 915) of an array of shape `(nf, nrec*nsrc)`: entry
`[f, r, s]` is entry `[f, r + nrec*s]`. -/
def reshapeF (nf nrec nsrc : ℕ) (v : ℕ → ℕ → ℂ) : NdArray :=
  ⟨[nf, nrec, nsrc], fun k => v (k / nsrc / nrec) (k / nsrc % nrec + nrec * (k % nsrc))⟩

/-- What `dipole` and `bipole` do with the frequency-domain response before they reshape it (model.py
624-628, 904-910): from the frequencies, the number of source-receiver pairs and the response to the number
of rows and the rows. -/
abbrev Post := List ℝ → ℕ → (ℕ → ℕ → ℂ) → W (ℕ × (ℕ → ℕ → ℂ))

/-- Nothing is done if `signal` is `None`. -/
def inFreq : Post := fun freq _ v => pure (freq.length, v)

/-- `dipole` (model.py 871-915) once the layer parameters and the four arrays of the medium are known: from
`check_loop` on, without the final squeeze; `post` is what is done with the frequency-domain response. -/
noncomputable def dipoleTail (B : Back) (A : DipoleArgs) (post : Post) (mo : ModelOut) (fo : FreqOut) : W NdArray := do
  let lp := checkLoop A.loop B.ht B.ptsPerDec
  let c ← ofExcept (checkAb A.ab)
  let src ← ofExcept (checkDipole A.src)
  let rcv ← ofExcept (checkDipole A.rcv)
  let nsrc := src.1.length
  let nrec := rcv.1.length
  let oa := getOffAng B.m (src.1.getD · 0) (src.2.1.getD · 0) (rcv.1.getD · 0) (rcv.2.1.getD · 0)
    nsrc nrec B.junk B.junk
  let lsrc := layerOf mo.depth src.2.2
  let lrec := layerOf mo.depth rcv.2.2
  let rows := rowsOf mo.depth fo
  let full := fun i j => (Fullspace.fullspace B.sqrt (rows.map (medAt lrec)) (oa.1 j) (oa.2 j) src.2.2
    rcv.2.2 c.1 c.2.1 c.2.2).getD i 0
  let out := fem (B.hank src.2.2 rcv.2.2 lsrc lrec c.1 c.2.1 c.2.2) full c.1
    ((List.range (nsrc * nrec)).map fun k => (oa.1 k, oa.2 k)) rows (lsrc == lrec) A.xdirect
    mo.isfullspace c.2.1 c.2.2 lp.1 lp.2 true
  say (A.verb > 0 ∧ out.conv = false) "* WARNING :: Hankel-quadrature did not converge at least once"
  let EM ← post fo.freq (nrec * nsrc) out.val
  if nrec * nsrc = 0 then raise .valueError
  else pure (reshapeF EM.1 nrec nsrc EM.2)

/-- `dipole` (model.py 852-915) after `check_time`, without functions in a `res` dictionary (`Model/Hooks`) and
without the final squeeze. -/
noncomputable def dipoleWith (B : Back) (A : DipoleArgs) (post : Post) : W NdArray := do
  let mo ← checkModel B.m A.depth A.res A.aniso A.epermH A.epermV A.mpermH A.mpermV A.xdirect A.verb
  let fo ← checkFrequency B.m A.freq mo.res mo.aniso mo.epermH mo.epermV mo.mpermH mo.mpermV A.verb
  dipoleTail B A post mo fo

/-- `dipole` in the frequency domain without the final squeeze (model.py 852-915). -/
noncomputable def dipoleFull (B : Back) (A : DipoleArgs) : W NdArray := dipoleWith B A inFreq

/-- `dipole` (model.py 663-922) in the frequency domain. -/
noncomputable def dipole (B : Back) (A : DipoleArgs) : W NdArray := do
  let EM ← dipoleFull B A
  pure (if A.squeeze then EM.squeeze else EM)

/-! ## `ip_and_q` -/

/-- `np.atleast_1d(kwargs[k])[0]` (model.py 1580-1583). -/
def firstOf : Option (List ℝ) → W (Option (List ℝ))
  | none => pure none
  | some [] => raise .indexError
  | some (a :: _) => pure (some [a])

/-- The same for `res`; a dictionary becomes an object array with the dictionary as its only element. -/
def firstRes : ResArg → W ResArg
  | .array [] => raise .indexError
  | .array (a :: _) => pure (.array [a])
  | .dict r e => pure (.dict r e)

open Classical in
/-- Component of the primary field (model.py 1571-1577).  `in` compares with `==`: a float matches if
it is equal to the integer. -/
noncomputable def coplanar (ab : AbArg) : AbArg :=
  let is (n : ℤ) : Prop := match ab with
    | .int k => k = n
    | .float x => x = n
    | .other => False
  if is 44 ∨ is 54 ∨ is 64 then .int 44
  else if is 45 ∨ is 55 ∨ is 65 then .int 55
  else if is 46 ∨ is 56 ∨ is 66 then .int 66
  else ab

open Classical in
/-- `np.allclose(kwargs['src'][2], kwargs['rec'][2])` (model.py 1558): raises if there are fewer than three
coordinates, or if the arrays cannot be broadcast. -/
noncomputable def depthsClose (src rec : List (List ℝ)) : W Bool :=
  match src[2]?, rec[2]? with
  | some a, some b =>
    if a.length = b.length ∨ a.length = 1 ∨ b.length = 1 then
      pure (decide (∀ k < max a.length b.length, |bc a k - bc b k| ≤ 1e-8 + 1e-5 * |bc b k|))
    else raise .valueError
  | _, _ => raise .indexError

/-- The codes `ip_and_q` accepts (model.py 1549). -/
def ipqCodes : List ℤ := [44, 45, 46, 54, 55, 56, 64, 65, 66]

/-- `ip_and_q` (model.py 1490-1592); `signal` is `kwargs.get('signal', None) is not None`.  A missing `ab`
is 11. -/
noncomputable def ipAndQ (B : Back) (A : DipoleArgs) (signal : Bool) (scale : ℝ) :
    W (NdArray × NdArray) := do
  let n ← ofExcept (toInt A.ab)
  if n ∉ ipqCodes then raise .valueError
  else if signal then raise .valueError
  else
    let cl ← (if A.verb > 0 then depthsClose A.src A.rcv else pure true)
    say (A.verb > 0 ∧ cl = false) "* WARNING :: This function is experimental."
    let Hs ← dipole B { A with xdirect := none }
    let res ← firstRes A.res
    let aniso ← firstOf A.aniso
    let epermH ← firstOf A.epermH
    let epermV ← firstOf A.epermV
    let mpermH ← firstOf A.mpermH
    let mpermV ← firstOf A.mpermV
    let Hp ← dipole B { A with ab := coplanar A.ab, depth := some [], res := res, aniso := aniso,
                               epermH := epermH, epermV := epermV, mpermH := mpermH, mpermV := mpermV,
                               xdirect := some true }
    let H := fun k => B.o.div (scale * Hs.data k) (Hp.data k)
    pure (⟨Hs.shape, fun k => ((H k).re : ℂ)⟩, ⟨Hs.shape, fun k => ((H k).im : ℂ)⟩)

end Verif.Model
