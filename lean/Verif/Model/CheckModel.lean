import Verif.Model.Py
import Mathlib.Data.EReal.Basic
import Mathlib.Analysis.SpecialFunctions.Sqrt
import Mathlib.Analysis.SpecialFunctions.Trigonometric.Basic

/-!
# Model of `check_model`, `check_frequency`, `_check_min`, `get_layer_nr` (empymod/utils.py)

One-dimensional arrays are lists.  Depths are extended reals, everything else is real.  The
run-time minima (utils.py 64-69, settable with `set_minimum`) are the parameter `Mins`.
-/

namespace Verif.Utils
open Verif.Py Verif.Py.W

/-- The global minima (utils.py 64-69). -/
structure Mins where
  minFreq : ℝ
  minTime : ℝ
  minOff : ℝ
  minRes : ℝ
  minAngle : ℝ

/-- Initial values (utils.py 64-69). -/
noncomputable def Mins.init : Mins := ⟨1e-20, 1e-20, 1e-3, 1e-20, 1e-10⟩

/-- One element of `par[par < minval] = minval` (utils.py 2187-2188). -/
noncomputable def cut (minval x : ℝ) : ℝ := if x < minval then minval else x

open Classical in
/-- `_check_min` (utils.py 2181-2196) on a 1-D array (`scalar` only changes the shape). -/
noncomputable def checkMin (par : List ℝ) (minval : Option ℝ) (name : String) (verb : ℤ) :
    W (List ℝ) :=
  match minval with
  | none => pure par
  | some m => do
    say (verb > 0 ∧ ∃ x ∈ par, x < m) s!"* WARNING :: {name} < min are set to min!"
    pure (par.map (cut m))

/-- `_check_var` with a required shape (utils.py 2144-2163), for 1-D arrays. -/
def checkVar {α : Type} (var : List α) (n : ℕ) : W (List α) :=
  if var.length = n then pure var else raise .valueError

/-- `np.all(depth[1:] - depth[:-1] < 0)`: strictly decreasing.  (For infinite entries IEEE gives
`b - a < 0` exactly if `b < a`; `inf - inf` is NaN and compares false.) -/
def Decr : List EReal → Prop
  | a :: b :: t => b < a ∧ Decr (b :: t)
  | _ => True

/-- `np.any(depth[1:] - depth[:-1] < 0)`: some step goes up. -/
def SomeUp : List EReal → Prop
  | a :: b :: t => b < a ∨ SomeUp (b :: t)
  | _ => False

/-- `x[::swap]` -/
def rev {α : Type} (swap : Bool) (l : List α) : List α := if swap then l.reverse else l

open Classical in
/-- Depth part of `check_model` (utils.py 770-799): internal depth vector and `swap`. -/
noncomputable def checkDepth (depth : Option (List EReal)) : W (List EReal × Bool) :=
  let d := depth.getD []
  let swap : Bool := decide (d.length > 1 ∧ Decr d)
  let d := rev swap d
  if SomeUp d then raise .valueError
  else
    match d with
    | [] => pure ([⊥], swap)
    | a :: t =>
      let d1 := if a ≠ ⊥ then ⊥ :: a :: t else a :: t
      let d2 := if d1.getLast? = some ⊤ then d1.dropLast else d1
      pure (d2, swap)

/-- The resistivity argument of `check_model`: an array, or a dictionary with `res` and further
arrays (and functions, which are not modelled). -/
inductive ResArg where
  | array (res : List ℝ)
  | dict (res : List ℝ) (extra : List (String × Option (List ℝ)))

/-- Result of `check_model`. -/
structure ModelOut where
  depth : List EReal
  res : List ℝ
  extra : Option (List (String × List ℝ))
  aniso : List ℝ
  epermH : List ℝ
  epermV : List ℝ
  mpermH : List ℝ
  mpermV : List ℝ
  isfullspace : Bool

/-- `check_inp` for everything except `aniso` (utils.py 816-828). -/
noncomputable def checkInp (n : ℕ) (var : Option (List ℝ)) (name : String) (min : Option ℝ)
    (verb : ℤ) : W (List ℝ) :=
  match var with
  | none => pure (List.replicate n 1)
  | some v => do
    let p ← checkVar v n
    checkMin p min ("Parameter " ++ name) verb

/-- `check_inp` for `aniso` (utils.py 816-828): the cut-off is applied to the vertical
resistivity. -/
noncomputable def checkAniso (n : ℕ) (res : List ℝ) (var : Option (List ℝ)) (min : ℝ)
    (verb : ℤ) : W (List ℝ) :=
  match var with
  | none => pure (List.replicate n 1)
  | some v => do
    let p ← checkVar v n
    let pv ← checkMin (List.zipWith (fun a r => a ^ 2 * r) p res) (some min) "Parameter aniso" verb
    pure (List.zipWith (fun v r => Real.sqrt (v / r)) pv res)

/-- `check_inp` over the user-provided parameters (utils.py 872-876); result swapped. -/
noncomputable def checkExtra (n : ℕ) (swap : Bool) (verb : ℤ) :
    List (String × Option (List ℝ)) → W (List (String × List ℝ))
  | [] => pure []
  | (k, v) :: t => do
    let x ← checkInp n v k none verb
    say (verb > 2) k
    let t' ← checkExtra n swap verb t
    pure ((k, rev swap x) :: t')

open Classical in
/-- `(x - x[0] == 0).all()` (utils.py 859-861). -/
noncomputable def allSame (l : List ℝ) : Bool := decide (∀ x ∈ l, x - l.headD 0 = 0)

/-- `res`, or `res['res']` (utils.py 801-806). -/
def ResArg.res : ResArg → List ℝ
  | .array r => r
  | .dict r _ => r

/-- The further arrays of `res_dict`, if any (utils.py 801-806). -/
def ResArg.extra : ResArg → Option (List (String × Option (List ℝ)))
  | .array _ => none
  | .dict _ e => some e

/-- `epermV`/`mpermV`: a copy of the horizontal value if not given (utils.py 834-843). -/
noncomputable def checkVert (n : ℕ) (var : Option (List ℝ)) (horizontal : List ℝ) (name : String)
    (verb : ℤ) : W (List ℝ) :=
  match var with
  | none => pure horizontal
  | some v => checkInp n (some v) name (some 0) verb

/-- The user-provided parameters (utils.py 866-883); they switch off the full-space option. -/
noncomputable def checkDict (n : ℕ) (swap : Bool) (verb : ℤ) (full : Bool) :
    Option (List (String × Option (List ℝ))) → W (Bool × Option (List (String × List ℝ)))
  | none => pure (full, none)
  | some e => do
    let e' ← checkExtra n swap verb e
    pure (false, some e')

/-- `check_model` (utils.py 706-903).  `xdirect` only selects what is printed. -/
noncomputable def checkModel (m : Mins) (depth : Option (List EReal)) (res : ResArg)
    (aniso epermH epermV mpermH mpermV : Option (List ℝ)) (xdirect : Option Bool) (verb : ℤ) :
    W ModelOut := do
  let (d, swap) ← checkDepth depth
  let n := d.length
  let r ← checkVar res.res n
  let r ← checkMin r (some m.minRes) "Resistivities" verb
  let an ← checkAniso n r aniso m.minRes verb
  let eH ← checkInp n epermH "epermH" (some 0) verb
  let eV ← checkVert n epermV eH "epermV" verb
  let mH ← checkInp n mpermH "mpermH" (some 0) verb
  let mV ← checkVert n mpermV mH "mpermV" verb
  let r := rev swap r
  let an := rev swap an
  let eH := rev swap eH
  let eV := rev swap eV
  let mH := rev swap mH
  let mV := rev swap mV
  say (verb > 2) "   depth       [m] : ..."
  let full := allSame r && allSame an && (allSame eH && allSame eV) && (allSame mH && allSame mV)
  let (full, ex) ← checkDict n swap verb full res.extra
  say (verb > 2 ∧ full = true) (if xdirect = some true then
    ">  MODEL IS A FULLSPACE; returning analytical frequency-domain solution"
    else ">  MODEL IS A FULLSPACE")
  say (verb > 2) (if xdirect = none then "   direct field    :  Not calculated (secondary field)"
    else if xdirect = some true then "   direct field    :  Comp. in frequency domain"
    else "   direct field    :  Comp. in wavenumber domain")
  pure ⟨d, r, ex, an, eH, eV, mH, mV, full⟩

/-- `mu_0` (utils.py 522). -/
noncomputable def mu0 : ℝ := 4e-7 * Real.pi
/-- `epsilon_0` (utils.py 521-523). -/
noncomputable def eps0 : ℝ := 1 / (mu0 * 299792458 * 299792458)

/-- Result of `check_frequency`: one row per frequency. -/
structure FreqOut where
  freq : List ℝ
  etaH : List (List ℂ)
  etaV : List (List ℂ)
  zetaH : List (List ℂ)
  zetaV : List (List ℂ)

open Classical in
/-- `check_frequency` (utils.py 434-530).  In the Laplace domain the arrays are real in the code;
here they are complex numbers without imaginary part. -/
noncomputable def checkFrequency (m : Mins) (freq : List ℝ) (res aniso epermH epermV mpermH
    mpermV : List ℝ) (verb : ℤ) : W FreqOut := do
  let laplace : Bool := decide (¬ ∃ f ∈ freq, f > 0)
  let freq := if laplace then freq.map (fun f => -f) else freq
  let freq ← checkMin freq (some m.minFreq) (if laplace then "Laplace val" else "Frequencies") verb
  say (verb > 2) (if laplace then "   s-value  " else "   frequency")
  let sval : List ℂ := freq.map fun f : ℝ => if laplace then (f : ℂ) else 2 * Complex.I * Real.pi * f
  let row (f : ℂ → List ℂ) : List (List ℂ) := sval.map f
  pure {
    freq := freq
    etaH := row fun s => List.zipWith (fun r e : ℝ => 1 / (r : ℂ) + s * ((e * eps0 : ℝ) : ℂ)) res
      epermH
    etaV := row fun s => List.zipWith (fun ra e : ℝ => 1 / (ra : ℂ) + s * ((e * eps0 : ℝ) : ℂ))
      (List.zipWith (fun r a => r * a * a) res aniso) epermV
    zetaH := row fun s => mpermH.map fun u : ℝ => s * ((u * mu0 : ℝ) : ℂ)
    zetaV := row fun s => mpermV.map fun u : ℝ => s * ((u * mu0 : ℝ) : ℂ) }

/-- The pairs `(depth[i], pdepth[i])` (utils.py 1701). -/
noncomputable def bounds (depth : List EReal) : List (EReal × EReal) := List.zip depth (depth.tail ++ [⊤])

open Classical in
/-- `get_layer_nr` (utils.py 1668-1711): column indices of the `np.where`, row by row. -/
noncomputable def getLayerNr (z : List ℝ) (depth : List EReal) : List ℕ :=
  z.flatMap fun z : ℝ => ((bounds depth).zipIdx.filter fun p =>
    decide (p.1.1 < (z : EReal) ∧ p.1.2 ≥ (z : EReal))).map (·.2)

end Verif.Utils
