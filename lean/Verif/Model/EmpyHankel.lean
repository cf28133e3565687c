import Verif.Model.DipoleKFull
import Verif.Model.HankelFull

/-!
# Numerical transform pair for the filter design (empymod/scripts/fdesign.py 1169-1253)

`empy_hankel` returns a pair of functions, `lhs` of a wavenumber array and `rhs` of an array of distances.  A list of
types gives the list of the pairs (1200-1206) and is not modelled.  `1/np.sqrt(2)` is exact.
-/

namespace Verif.Model
open Verif.Py Verif.Py.W Verif.Utils Verif.Kernel Verif.Hank

/-- Arguments of `empy_hankel` (fdesign.py 1169-1171); see `DipoleArgs`.  `htarg` is the empty dictionary if it is not
given (1197-1198). -/
structure EHArgs where
  ftype : String
  zsrc : ℝ
  zrec : ℝ
  res : ResArg
  freqtime : List ℝ
  depth : Option (List EReal)
  aniso : Option (List ℝ)
  epermH : Option (List ℝ)
  epermV : Option (List ℝ)
  mpermH : Option (List ℝ)
  mpermV : Option (List ℝ)
  htarg : Option Args.Dict
  verblhs : ℤ
  verbrhs : ℤ

/-- Component pair and direction `ab, x, y` (fdesign.py 1219-1233). -/
noncomputable def ehCase (ftype : String) : Option (ℤ × ℝ × ℝ) :=
  if ftype = "j0" then some (11, 1 / Real.sqrt 2, 1 / Real.sqrt 2)
  else if ftype = "j1" then some (31, 1, 0)
  else if ftype = "j2" then some (12, 1 / Real.sqrt 2, 1 / Real.sqrt 2)
  else none

/-- What `rhs` hands to `dipole` (fdesign.py 1209-1216, 1238-1239). -/
noncomputable def ehDipole (A : EHArgs) (c : ℤ × ℝ × ℝ) (r : List ℝ) : DipoleArgs where
  src := [[0], [0], [A.zsrc]]
  rcv := [r.map (· * c.2.1), r.map (· * c.2.2), [A.zrec]]
  depth := A.depth
  res := A.res
  freq := A.freqtime
  ab := .int c.1
  aniso := A.aniso
  epermH := A.epermH
  epermV := A.epermV
  mpermH := A.mpermH
  mpermV := A.mpermV
  xdirect := some true
  loop := none
  squeeze := true
  verb := A.verbrhs

/-- What `lhs` hands to `dipole_k` (fdesign.py 1209-1216, 1244-1245). -/
noncomputable def ehDipoleK (A : EHArgs) (c : ℤ × ℝ × ℝ) (k : KWave) : KArgs where
  src := [[0], [0], [A.zsrc]]
  rcv := [[c.2.1], [c.2.2], [A.zrec]]
  depth := A.depth
  res := A.res
  freq := A.freqtime
  wavenumber := k
  ab := .int c.1
  aniso := A.aniso
  epermH := A.epermH
  epermV := A.epermV
  mpermH := A.mpermH
  mpermV := A.mpermV
  verb := A.verblhs

/-- `rhs` (fdesign.py 1237-1240).  For an unknown type the free variables `x`, `y` have no value: a `NameError`, here
`unboundLocal`, which Python derives from it. -/
noncomputable def ehRhs (H : HBack) (A : EHArgs) (r : List ℝ) : W NdArray :=
  match ehCase A.ftype with
  | none => raise .unboundLocal
  | some c => dipoleH H (ehDipole A c r) "qwe" (A.htarg.getD [])

/-- `lhs` (fdesign.py 1243-1251): one array, or a tuple of two. -/
noncomputable def ehLhs (H : HBack) (A : EHArgs) (k : KWave) : W (List NdArray) :=
  match ehCase A.ftype with
  | none => raise .unboundLocal
  | some c => do
    let P ← dipoleKFull H.m H.o H.junk (ehDipoleK A c k)
    pure (if A.ftype = "j0" then [P.1] else if A.ftype = "j1" then [P.2] else [P.1, P.2])

end Verif.Model
