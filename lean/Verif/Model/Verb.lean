import Verif.Model.Args
import Verif.Model.Dipole

/-!
# Model of what is printed for information (`verb > 2`)

`Verif.Model.Args`, `Verif.Model.CheckAb` and `Verif.Model.Fem` leave the information of `verb > 2`
out.  Here it is added, in the order of the code.  What matters is not the text but what is
evaluated to print it: an attribute that does not exist raises.
-/

namespace Verif.Verb
open Verif.Py Verif.Py.W Verif.Args

/-- Several lines. -/
def lines (l : List String) : W Unit := ⟨.ok (), l⟩

/-- `check_ab` (utils.py 151-217), with printing. -/
noncomputable def checkAb (ab : Utils.AbArg) (verb : ℤ) : W (ℕ × Bool × Bool) := do
  let n ← Model.ofExcept (Utils.toInt ab)
  if n ∉ Utils.pab then raise .valueError
  else do
    say (verb > 2) "   Input ab"
    let r ← Model.ofExcept (Utils.checkAbInt n)
    say (verb > 2) (if n = 36 ∨ n = 63 then ">  <ab> WHICH IS ZERO; returning" else "   Calculated ab")
    pure r

/-- `check_loop` (utils.py 906-961), with printing. -/
noncomputable def checkLoop (loop : Option String) (ht : String) (ptsPerDec : ℝ) (verb : ℤ) :
    W (Bool × Bool) := do
  let r := Model.checkLoop loop ht ptsPerDec
  say (verb > 2) (if r.2 then "   Loop over       :  Offsets"
    else if r.1 then "   Loop over       :  Frequencies"
    else "   Loop over       :  None (all vectorized)")
  pure r

/-- The information about a digital filter (utils.py 589-598, 1066-1078): the attribute `name` of the
filter is read, `pts_per_dec` is compared with zero (an array has no truth value unless it has one
element). -/
def filterInfo (targ : Dict) : W Unit :=
  match targ.lookup "dlf" with
  | some (.filter attrs _) =>
    if "name" ∉ attrs then ⟨.error .attributeError, ["   Hankel / Fourier   :  DLF"]⟩
    else match targ.lookup "pts_per_dec" with
      | some (.num _) => lines ["   Hankel / Fourier   :  DLF", "     > Filter", "     > DLF type"]
      | some (.arr [_]) => lines ["   Hankel / Fourier   :  DLF", "     > Filter", "     > DLF type"]
      | _ => ⟨.error .valueError, ["   Hankel / Fourier   :  DLF", "     > Filter"]⟩
  | _ => raise .attributeError

/-- Information about the method (utils.py 589-598, 645-658, 687-694; 1066-1078, 1136-1149, 1185-1189,
1247-1255). -/
def info (meth : String) (verb : ℤ) (targ : Dict) : W Unit :=
  if verb > 2 then (if meth = "dlf" then filterInfo targ else lines ["   Transform", "     > arguments"])
  else pure ()

/-- `check_hankel` (utils.py 533-703), with printing. -/
noncomputable def checkHankel (C : Conv) (lib : String → Option Val) (dflt : Val) (ht : String)
    (htarg : Dict) (verb : ℤ) : W (String × Dict) := do
  let s ← hankelSteps C lib dflt (lower ht) verb ⟨htarg, []⟩
  let _ ← info (lower ht) verb s.targ
  let d ← unknown verb s
  pure (lower ht, d)

/-- `check_time` (utils.py 1024-1265), with printing; the FFT prints after the frequencies are
calculated. -/
noncomputable def checkTime (E : Env) (C : Conv) (lib : String → Option Val) (dflt : Val)
    (time : List ℝ) (signal : ℝ) (ft : String) (ftarg : Dict) (verb : ℤ) :
    W (List ℝ × String × Dict) := do
  let s ← timeSteps C lib dflt (lower ft) signal verb ⟨ftarg, []⟩
  let _ ← (if lower ft = "fft" then pure () else info (lower ft) verb s.targ)
  let r ← timeFreq E (lower ft) time s
  let _ ← (if lower ft = "fft" then info (lower ft) verb r.2.targ else pure ())
  let d ← unknown verb r.2
  pure (r.1, lower ft, d)

/-- `check_time_only` (utils.py 1278-1348) for a signal that is not a dictionary. -/
noncomputable def checkTimeOnly (m : Utils.Mins) (time : List ℝ) (signal : ℝ) (verb : ℤ) :
    W (List ℝ) := do
  let time ← Utils.checkMin time (some m.minTime) "Times" verb
  say (verb > 2) "   time        [s]"
  let _ ← Tem.checkSignal signal
  say (verb > 2) "   signal"
  pure time

end Verif.Verb
