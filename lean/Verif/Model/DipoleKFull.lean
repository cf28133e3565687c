import Verif.Model.DipoleK
import Verif.Model.Dipole

/-!
# `dipole_k` from its arguments (empymod/model.py 1293-1487)

The checks, the geometry and the calculation (`Verif.Model.DipoleK`) in the order of the code.  Not modelled: what is
printed by `printstartfinish`, unexpected keywords (`get_kwargs`, C29), arrays of wavenumbers with three or more
dimensions.  The functions in a `res` dictionary are not called by `dipole_k`.
-/

namespace Verif.Model
open Verif.Py Verif.Py.W Verif.Utils Verif.Kernel

/-- The argument `wavenumber`: an array, or a number or list, which have no `size` and no `shape` (model.py 1452-1461). -/
inductive KWave where
  | array (w : WaveArg)
  | bare

/-- Arguments of `dipole_k` (model.py 1293-1294, 1415); see `DipoleArgs`. -/
structure KArgs where
  src : List (List ℝ)
  rcv : List (List ℝ)
  depth : Option (List EReal)
  res : ResArg
  freq : List ℝ
  wavenumber : KWave
  ab : AbArg
  aniso : Option (List ℝ)
  epermH : Option (List ℝ)
  epermV : Option (List ℝ)
  mpermH : Option (List ℝ)
  mpermV : Option (List ℝ)
  verb : ℤ

open Classical in
/-- The code as `in` compares it with the codes in a list (kernel.py 721-743, model.py 1477): a float is equal to an
integer, or to no code at all. -/
noncomputable def codeOf : AbArg → ℤ
  | .int n => n
  | .float x => if ((⌊x⌋ : ℤ) : ℝ) = x then ⌊x⌋ else 0
  | .other => 0

/-- What the calculation gets (model.py 1426-1446). -/
noncomputable def kSetup (m : Mins) (o : Ops) (junk : ℕ → ℝ) (mo : ModelOut) (fo : FreqOut)
    (src rcv : List ℝ × List ℝ × ℝ) : KSetup :=
  let oa := getOffAng m (src.1.getD · 0) (src.2.1.getD · 0) (rcv.1.getD · 0) (rcv.2.1.getD · 0)
    src.1.length rcv.1.length junk junk
  { o := o
    nfreq := fo.freq.length
    earth := fun i => rowEarth mo.depth (fo.etaH.getD i []) (fo.etaV.getD i []) (fo.zetaH.getD i []) (fo.zetaV.getD i [])
    noff := src.1.length * rcv.1.length
    off := oa.1
    ang := oa.2
    zsrc := src.2.2
    zrec := rcv.2.2
    lsrc := layerOf mo.depth src.2.2
    lrec := layerOf mo.depth rcv.2.2 }

/-- `dipole_k` (model.py 1420-1482) without the final squeeze. -/
noncomputable def dipoleKArr (m : Mins) (o : Ops) (junk : ℕ → ℝ) (A : KArgs) : W (Arr3 × Arr3) := do
  let mo ← checkModel m A.depth A.res A.aniso A.epermH A.epermV A.mpermH A.mpermV (some false) A.verb
  let fo ← checkFrequency m A.freq mo.res mo.aniso mo.epermH mo.epermV mo.mpermH mo.mpermV A.verb
  let c ← ofExcept (checkAb A.ab)
  let src ← ofExcept (checkDipole A.src)
  let rcv ← ofExcept (checkDipole A.rcv)
  match A.wavenumber with
  | .bare => raise .attributeError
  | .array w => ofExcept (dipoleKCore (kSetup m o junk mo fo src rcv) w (codeOf A.ab) c)

/-- The buffer of an array with three dimensions. -/
def Arr3.nd (a : Arr3) : NdArray := ⟨[a.n, a.r, a.c], fun k => a.v (k / a.c / a.r) (k / a.c % a.r) (k % a.c)⟩

/-- `dipole_k` (model.py 1293-1487). -/
noncomputable def dipoleKFull (m : Mins) (o : Ops) (junk : ℕ → ℝ) (A : KArgs) : W (NdArray × NdArray) := do
  let P ← dipoleKArr m o junk A
  pure (P.1.nd.squeeze, P.2.nd.squeeze)

end Verif.Model
