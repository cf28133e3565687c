import Verif.Model.Dipole

/-!
# Model of `bipole` (model.py 73-660, frequency domain) and `loop` (model.py 925-941)

The loops over depths, integration points and components are those of `Verif.Model.Bipole`, the checks
and `fem` those of the other files; here they are put together in the order of the code.  Parameters as
for `dipole`, and the nodes and weights of the Gauss quadrature.  Functions inside a `res` dictionary are in
`Verif.Model.Hooks`.  Not modelled: `bandpass`, flags that are numbers instead of Booleans, all messages after the
checks (time, kernel count, convergence, anisotropy at the receiver level).  The time domain (`signal`) is in
`Verif.Model.TimeDomain`.
-/

namespace Verif.Model
open Verif.Py Verif.Py.W Verif.Utils Verif.Kernel

/-- `check_bipole` (utils.py 216-368) as `bipole` calls it: poles, flag, type.  With `None` as flag the
coordinates are checked, then four values are returned, which `bipole` cannot unpack. -/
noncomputable def checkBipole (isSrc : Bool) (mx : MxArg) (inp : List (List ℝ)) :
    Except PyErr (Poles × Bool × XType) :=
  match mx with
  | .none => do
    let _ ← checkPoles inp
    .error .valueError
  | mx => do
    let f ← checkMx isSrc mx
    let p ← checkPoles inp
    .ok (p, f)

/-- Arguments of `bipole` (model.py 73-76, 432-439); see `DipoleArgs`. -/
structure BipoleArgs where
  src : List (List ℝ)
  rcv : List (List ℝ)
  depth : Option (List EReal)
  res : ResArg
  freq : List ℝ
  aniso : Option (List ℝ)
  epermH : Option (List ℝ)
  epermV : Option (List ℝ)
  mpermH : Option (List ℝ)
  mpermV : Option (List ℝ)
  msrc : MxArg
  srcpts : ℤ
  mrec : MxArg
  recpts : ℤ
  strength : ℝ
  xdirect : Option Bool
  loop : Option String
  squeeze : Bool
  verb : ℤ

/-- What the loops of `bipole` use for frequency `i` (model.py 536-540, 545: `finp` and `fem`). -/
noncomputable def setupAt (B : Back) (e : Ext) (A : BipoleArgs) (mo : ModelOut) (fo : FreqOut)
    (sf rf : Bool × XType) (i : ℕ) : Setup where
  m := B.m
  e := e
  depth := mo.depth
  etaH := fun l => (fo.etaH.getD i []).getD l 0
  zetaH := fun l => (fo.zetaH.getD i []).getD l 0
  msrc := sf.1
  mrec := rf.1
  stype := sf.2
  rtype := rf.2
  strength := A.strength
  fem := fun ab offs zs zr ls lr k =>
    let rows := rowsOf mo.depth fo
    let lp := checkLoop A.loop B.ht B.ptsPerDec
    let full := fun i j => (Fullspace.fullspace B.sqrt (rows.map (medAt lr)) (offs.getD j (0, 0)).1
      (offs.getD j (0, 0)).2 zs zr ab sf.1 rf.1).getD i 0
    (fem (B.hank zs zr ls lr ab sf.1 rf.1) full ab offs rows (ls == lr) A.xdirect mo.isfullspace sf.1 rf.1
      lp.1 lp.2 true).val i k
  junk := B.junk

/-- `bipole` (model.py 469-634) once the layer parameters and the four arrays of the medium are known, without the
final squeeze; `post` is what is done with the frequency-domain response. -/
noncomputable def bipoleTail (B : Back) (e : Ext) (A : BipoleArgs) (post : Post) (mo : ModelOut) (fo : FreqOut) :
    W NdArray := do
  let src ← ofExcept (checkBipole true A.msrc A.src)
  let rcv ← ofExcept (checkBipole false A.mrec A.rcv)
  let EM ← post fo.freq (rcv.1.n * src.1.n) fun i =>
    bipoleRow (setupAt B e A mo fo src.2 rcv.2 i) src.1 rcv.1 A.srcpts A.recpts
  pure (reshapeF EM.1 rcv.1.n src.1.n EM.2)

/-- `bipole` (model.py 453-634) after `check_time`, without functions in a `res` dictionary (`Model/Hooks`) and
without the final squeeze. -/
noncomputable def bipoleWith (B : Back) (e : Ext) (A : BipoleArgs) (post : Post) : W NdArray := do
  let mo ← checkModel B.m A.depth A.res A.aniso A.epermH A.epermV A.mpermH A.mpermV A.xdirect A.verb
  let fo ← checkFrequency B.m A.freq mo.res mo.aniso mo.epermH mo.epermV mo.mpermH mo.mpermV A.verb
  bipoleTail B e A post mo fo

/-- `bipole` in the frequency domain without the final squeeze (model.py 453-634). -/
noncomputable def bipoleFull (B : Back) (e : Ext) (A : BipoleArgs) : W NdArray := bipoleWith B e A inFreq

/-- `bipole` (model.py 73-660) in the frequency domain. -/
noncomputable def bipole (B : Back) (e : Ext) (A : BipoleArgs) : W NdArray := do
  let EM ← bipoleFull B e A
  pure (if A.squeeze then EM.squeeze else EM)

/-- `loop` (model.py 925-941): `bipole` with `msrc='b'` and `srcpts=1`, whatever the caller gives for
them among the keyword arguments. -/
noncomputable def loop (B : Back) (e : Ext) (A : BipoleArgs) : W NdArray := do
  say true "DeprecationWarning: Calling `empymod.model.loop` is deprecated"
  bipole B e { A with msrc := .str "b", srcpts := 1 }

end Verif.Model
