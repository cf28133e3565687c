import Verif.Model.TimeDomain

/-!
# Functions of the user: `func_eta`, `func_zeta` in a `res` dictionary, and `bandpass`

model.py 463-467 and 865-869 (`func_eta`, `func_zeta`), 629-631 and 903-905 (`bandpass`), in `bipole` and `dipole`, in
the frequency and the time domain.

The functions of the user are arbitrary functions from what they can see to a result or an exception.  Of `locals()`
they see here the checked model and the arrays of `check_frequency`, respectively the frequencies and the response.
Not modelled: functions which change other arrays in place, which return arrays of another shape than (frequencies,
layers), or which return real arrays in the frequency domain (`fem` then raises a TypeError).
-/

namespace Verif.Model
open Verif.Py Verif.Py.W Verif.Utils Verif.Kernel

/-- `func(res, locals())` with `res` the checked dictionary: returns the horizontal and the vertical array, one row per
frequency. -/
abbrev Hook := ModelOut → FreqOut → Except PyErr (List (List ℂ) × List (List ℂ))

/-- The functions in the dictionary, if any. -/
structure Hooks where
  eta : Option Hook
  zeta : Option Hook

/-- model.py 464-465, 866-867. -/
def Hooks.runEta (K : Hooks) (mo : ModelOut) (fo : FreqOut) : Except PyErr FreqOut :=
  match K.eta with
  | none => .ok fo
  | some h => do
    let r ← h mo fo
    .ok { fo with etaH := r.1, etaV := r.2 }

/-- model.py 466-467, 868-869. -/
def Hooks.runZeta (K : Hooks) (mo : ModelOut) (fo : FreqOut) : Except PyErr FreqOut :=
  match K.zeta with
  | none => .ok fo
  | some h => do
    let r ← h mo fo
    .ok { fo with zetaH := r.1, zetaV := r.2 }

/-- model.py 463-467, 865-869: only if `res` is a dictionary; `func_zeta` sees the arrays `func_eta` has returned. -/
def Hooks.run (K : Hooks) (mo : ModelOut) (fo : FreqOut) : Except PyErr FreqOut :=
  if mo.extra.isSome then do
    let fo ← K.runEta mo fo
    K.runZeta mo fo
  else .ok fo

/-- `bandpass['func'](bandpass, locals())`: from the frequencies and the response, one column per source-receiver pair,
to the changed response. -/
abbrev Band := List ℝ → ℕ → (ℕ → ℕ → ℂ) → Except PyErr (ℕ → ℕ → ℂ)

/-- model.py 629-631, 903-905: before the transform to the time domain. -/
def withBand (b : Option Band) (post : Post) : Post := fun freq n v =>
  match b with
  | none => post freq n v
  | some b => do
    let v' ← ofExcept (b freq n v)
    post freq n v'

/-- `dipole` (model.py 852-915) with functions of the user, after `check_time` and without the final squeeze. -/
noncomputable def dipoleHookWith (B : Back) (K : Hooks) (b : Option Band) (A : DipoleArgs) (post : Post) : W NdArray := do
  let mo ← checkModel B.m A.depth A.res A.aniso A.epermH A.epermV A.mpermH A.mpermV A.xdirect A.verb
  let fo ← checkFrequency B.m A.freq mo.res mo.aniso mo.epermH mo.epermV mo.mpermH mo.mpermV A.verb
  let fo ← ofExcept (K.run mo fo)
  dipoleTail B A (withBand b post) mo fo

/-- `dipole` (model.py 663-922) in the frequency domain with functions of the user. -/
noncomputable def dipoleHook (B : Back) (K : Hooks) (b : Option Band) (A : DipoleArgs) : W NdArray := do
  let EM ← dipoleHookWith B K b A inFreq
  pure (if A.squeeze then EM.squeeze else EM)

/-- `bipole` (model.py 453-634) with functions of the user, after `check_time` and without the final squeeze. -/
noncomputable def bipoleHookWith (B : Back) (e : Ext) (K : Hooks) (b : Option Band) (A : BipoleArgs) (post : Post) :
    W NdArray := do
  let mo ← checkModel B.m A.depth A.res A.aniso A.epermH A.epermV A.mpermH A.mpermV A.xdirect A.verb
  let fo ← checkFrequency B.m A.freq mo.res mo.aniso mo.epermH mo.epermV mo.mpermH mo.mpermV A.verb
  let fo ← ofExcept (K.run mo fo)
  bipoleTail B e A (withBand b post) mo fo

/-- `bipole` (model.py 73-660) in the frequency domain with functions of the user. -/
noncomputable def bipoleHook (B : Back) (e : Ext) (K : Hooks) (b : Option Band) (A : BipoleArgs) : W NdArray := do
  let EM ← bipoleHookWith B e K b A inFreq
  pure (if A.squeeze then EM.squeeze else EM)

end Verif.Model

namespace Verif.Time
open Verif.Py Verif.Py.W Verif.Args Verif.Transform Verif.Model

open Classical in
/-- `dipole` (model.py 663-922) with a signal and functions of the user: `A.freq` are the times. -/
noncomputable def dipoleHookTime (B : Back) (T : FBack) (K : Hooks) (b : Option Band) (A : DipoleArgs) (sig : Signal)
    (ft : String) (ftarg : Dict) : W NdArray := do
  let c ← checkTime T B.m A.freq sig ft ftarg A.verb
  if printsRows c A.verb then do
    let _ ← Utils.checkModel B.m A.depth A.res A.aniso A.epermH A.epermV A.mpermH A.mpermV A.xdirect A.verb
    raise .typeError
  else do
    let EM ← dipoleHookWith B K b { A with freq := c.freq } (temStep T c A.verb)
    pure (if A.squeeze then EM.squeeze else EM)

open Classical in
/-- `bipole` (model.py 73-660) with a signal and functions of the user: `A.freq` are the times. -/
noncomputable def bipoleHookTime (B : Back) (T : FBack) (e : Utils.Ext) (K : Hooks) (b : Option Band) (A : BipoleArgs)
    (sig : Signal) (ft : String) (ftarg : Dict) : W NdArray := do
  let c ← checkTime T B.m A.freq sig ft ftarg A.verb
  if printsRows c A.verb then do
    let _ ← Utils.checkModel B.m A.depth A.res A.aniso A.epermH A.epermV A.mpermH A.mpermV A.xdirect A.verb
    raise .typeError
  else do
    let EM ← bipoleHookWith B e K b { A with freq := c.freq } (temStepB T c A.verb)
    pure (if A.squeeze then EM.squeeze else EM)

end Verif.Time

/-! ## The functions of the gallery -/

namespace Verif.Gallery
open Verif.Py Verif.Utils Verif.Model

/-- `inp[k]`. -/
def param (mo : ModelOut) (k : String) : Except PyErr (List ℝ) :=
  match (mo.extra.getD []).lookup k with
  | none => .error .keyError
  | some l => .ok l

/-- An array with one row per frequency and one column per layer. -/
noncomputable def table (mo : ModelOut) (fo : FreqOut) (v : ℕ → ℕ → ℂ) : List (List ℂ) :=
  (List.range fo.freq.length).map fun g => (List.range mo.depth.length).map (v g)

/-- `np.outer(2j*np.pi*p_dict['freq'], inp['tau'])**inp['c']` (cole_cole_ip.py 146, 161), one entry. -/
noncomputable def iotc (fo : FreqOut) (tau c : List ℝ) (g i : ℕ) : ℂ :=
  (2 * Complex.I * Real.pi * (fo.freq.getD g 0 : ℂ) * (tau.getD i 0 : ℂ)) ^ ((c.getD i 0 : ℝ) : ℂ)

/-- `cole_cole` (examples/time_domain/cole_cole_ip.py 142-154); arrays of the length of the model. -/
noncomputable def coleCole : Hook := fun mo fo => do
  let tau ← param mo "tau"
  let c ← param mo "c"
  let c8 ← param mo "cond_8"
  let c0 ← param mo "cond_0"
  let condH := fun g i => (c8.getD i 0 : ℂ) + ((c0.getD i 0 : ℂ) - (c8.getD i 0 : ℂ)) / (1 + iotc fo tau c g i)
  let condV := fun g i => condH g i / ((mo.aniso.getD i 0 : ℝ) : ℂ) ^ 2
  .ok (table mo fo fun g i => condH g i + Complex.I * (((fo.etaH.getD g []).getD i 0).im : ℂ),
    table mo fo fun g i => condV g i + Complex.I * (((fo.etaV.getD g []).getD i 0).im : ℂ))

/-- `pelton_et_al` (examples/time_domain/cole_cole_ip.py 157-169). -/
noncomputable def pelton : Hook := fun mo fo => do
  let tau ← param mo "tau"
  let c ← param mo "c"
  let r0 ← param mo "rho_0"
  let mm ← param mo "m"
  let rhoH := fun g i => (r0.getD i 0 : ℂ) * (1 - (mm.getD i 0 : ℂ) * (1 - 1 / (1 + iotc fo tau c g i)))
  let rhoV := fun g i => rhoH g i * ((mo.aniso.getD i 0 : ℝ) : ℂ) ^ 2
  .ok (table mo fo fun g i => 1 / rhoH g i + Complex.I * (((fo.etaH.getD g []).getD i 0).im : ℂ),
    table mo fo fun g i => 1 / rhoV g i + Complex.I * (((fo.etaV.getD g []).getD i 0).im : ℂ))

end Verif.Gallery
