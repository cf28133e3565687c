import Verif.Model.Halfspace
import Verif.Model.Hooks

/-!
# `analytical` from its arguments (empymod/model.py 944-1195)

The checks, the geometry and the calculation (`Verif.Model.Halfspace`, `Verif.Model.Fullspace`) in the order of the code.
Not modelled: what is printed by `printstartfinish`, unexpected keywords (`get_kwargs`, C29), functions of the user which
return arrays of another shape (`Verif.Model.Hooks`).
-/

namespace Verif.Model
open Verif.Py Verif.Py.W Verif.Utils Verif.Kernel

/-- Arguments of `analytical` (model.py 925-926, 1110); see `DipoleArgs`.  `isList`: `freqtime` is a Python list. -/
structure AnaArgs where
  src : List (List ℝ)
  rcv : List (List ℝ)
  res : ResArg
  freqtime : List ℝ
  isList : Bool
  solution : String
  signal : Option Time.Signal
  ab : AbArg
  aniso : Option (List ℝ)
  epermH : Option (List ℝ)
  epermV : Option (List ℝ)
  mpermH : Option (List ℝ)
  mpermV : Option (List ℝ)
  squeeze : Bool
  verb : ℤ

open Classical in
/-- How `halfspace` reads a numerical signal (kernel.py 962, 1025, 1042, 1220): `signal == -1`, `abs(signal) == 1`, else an
impulse.  (A dictionary only has to be something.) -/
noncomputable def signalCode : Time.Signal → ℤ
  | .num s => if s = -1 then -1 else if |s| = 1 then 1 else 0
  | .wave .. => 0

open Classical in
/-- What `halfspace` and `fullspace` get (model.py 1145-1168). -/
noncomputable def anaSetup (m : Mins) (junk : ℕ → ℝ) (A : AnaArgs) (time : List ℝ) (fo : FreqOut) (med0 : Fullspace.Med)
    (meds : List Fullspace.Med) (src rcv : List ℝ × List ℝ × ℝ) : Halfspace.Setup :=
  let oa := getOffAng m (src.1.getD · 0) (src.2.1.getD · 0) (rcv.1.getD · 0) (rcv.2.1.getD · 0)
    src.1.length rcv.1.length junk junk
  { off := oa.1
    angle := oa.2
    nrec := rcv.1.length
    zsrc := src.2.2
    zrec := rcv.2.2
    med0 := med0
    meds := meds
    sval := fun i => if ∃ f ∈ A.freqtime, 0 < f then 2 * Complex.I * Real.pi * (fo.freq.getD i 0 : ℂ)
      else (fo.freq.getD i 0 : ℂ)
    time := fun i => time.getD i 0 }

/-- The arrays in a result. -/
def outList {K : Type} : Halfspace.Out K → List K
  | .whole v => [v]
  | .split d r a => [d, r, a]
  | .tetm a b c d e => [a, b, c, d, e]

/-- The arrays of an entry, as complex numbers. -/
noncomputable def entryList : Halfspace.Analytical → ℕ → ℕ → ℕ → List ℂ
  | .freq f, i, r, s => outList (f i r s)
  | .time f, i, r, s => (outList (f i r s)).map fun x : ℝ => (x : ℂ)

/-- Number of arrays in the tuple, if it is one (model.py 1179-1188). -/
def tupleOf (solution : String) : Option ℕ :=
  if solution = "dsplit" then some 3 else if solution = "dtetm" then some 5 else none

/-- `reshape((-1, nrec, nsrc), order='F')` (model.py 1179-1190), and what `EMArray` makes of a tuple of arrays (utils.py
133-134: `np.asarray`): one array with the tuple as first dimension. -/
noncomputable def stack (solution : String) (nf nrec nsrc : ℕ) (e : ℕ → ℕ → ℕ → List ℂ) : NdArray :=
  match tupleOf solution with
  | none => ⟨[nf, nrec, nsrc], fun k => (e (k / nsrc / nrec) (k / nsrc % nrec) (k % nsrc)).getD 0 0⟩
  | some w => ⟨[w, nf, nrec, nsrc], fun k =>
      (e (k / nsrc / nrec % nf) (k / nsrc % nrec) (k % nsrc)).getD (k / nsrc / nrec / nf) 0⟩

/-- Lines 1155-1176 of model.py: the arrays, by frequency or time, receiver and source.  Without frequencies `etaH[0, 0]`
raises IndexError in `halfspace` (kernel.py 954). -/
noncomputable def anaEntries (B : Halfspace.Bessel) (sqrt : ℂ → ℂ) (m : Mins) (junk : ℕ → ℝ) (A : AnaArgs)
    (time : List ℝ) (mo : ModelOut) (fo : FreqOut) (c : ℕ × Bool × Bool) (src rcv : List ℝ × List ℝ × ℝ) :
    Except PyErr (ℕ → ℕ → ℕ → List ℂ) :=
  match (rowsOf mo.depth fo).map (medAt 0) with
  | [] =>
    if A.solution.toList.head? = some 'd' then
      .error (if A.signal.isNone && A.isList then .typeError else .indexError)
    else .ok fun _ _ _ => [0]
  | m0 :: ms => do
    let f ← Halfspace.analytical B sqrt (anaSetup m junk A time fo m0 ms src rcv) A.solution (A.signal.map signalCode)
      A.isList c.1 c.2.1 c.2.2
    .ok (entryList f)

/-- Lines 1152-1190 of model.py: `check_solution`, the fields (a dictionary as signal fails in `abs(signal)`, kernel.py
1025), the layout. -/
noncomputable def anaField (B : Halfspace.Bessel) (sqrt : ℂ → ℂ) (m : Mins) (junk : ℕ → ℝ) (A : AnaArgs)
    (time : List ℝ) (mo : ModelOut) (fo : FreqOut) (c : ℕ × Bool × Bool) (src rcv : List ℝ × List ℝ × ℝ) :
    Except PyErr NdArray := do
  Halfspace.checkSolution A.solution (A.signal.map signalCode) c.2.1 c.2.2
  match A.signal with
  | some (.wave ..) => .error .typeError
  | _ =>
    let e ← anaEntries B sqrt m junk A time mo fo c src rcv
    if rcv.1.length * src.1.length = 0 then .error .valueError
    else .ok (stack A.solution fo.freq.length rcv.1.length src.1.length e)

/-- The times (model.py 1119-1120), or the frequencies as they are. -/
noncomputable def anaTime (T : Time.FBack) (m : Mins) (A : AnaArgs) : W (List ℝ) :=
  match A.signal with
  | none => pure A.freqtime
  | some sig => do
    let w ← Time.checkTimeOnly T m A.freqtime sig A.verb
    pure w.1

/-- `analytical` (model.py 1119-1190) without the final squeeze.  The times are passed on to `check_frequency`. -/
noncomputable def analyticalArr (B : Halfspace.Bessel) (T : Time.FBack) (m : Mins) (sqrt : ℂ → ℂ) (junk : ℕ → ℝ)
    (K : Hooks) (A : AnaArgs) : W NdArray := do
  let time ← anaTime T m A
  let mo ← checkModel m (some []) A.res A.aniso A.epermH A.epermV A.mpermH A.mpermV (some true) A.verb
  let fo ← checkFrequency m time mo.res mo.aniso mo.epermH mo.epermV mo.mpermH mo.mpermV A.verb
  let fo ← ofExcept (K.run mo fo)
  let c ← ofExcept (checkAb A.ab)
  let src ← ofExcept (checkDipole A.src)
  let rcv ← ofExcept (checkDipole A.rcv)
  ofExcept (anaField B sqrt m junk A time mo fo c src rcv)

/-- `analytical` (model.py 944-1195). -/
noncomputable def analyticalFull (B : Halfspace.Bessel) (T : Time.FBack) (m : Mins) (sqrt : ℂ → ℂ) (junk : ℕ → ℝ)
    (K : Hooks) (A : AnaArgs) : W NdArray := do
  let EM ← analyticalArr B T m sqrt junk K A
  pure (if A.squeeze then EM.squeeze else EM)

end Verif.Model
