import Verif.Model.Py
import Verif.Model.Tem
import Verif.Model.Fftlog
import Verif.Model.CheckModel
import Mathlib.Data.List.Infix

/-!
# Model of `check_hankel` (utils.py 533-703), of the arguments in `check_time` (utils.py 1024-1262) and of
`get_kwargs` (utils.py 1973-2040)

Dictionaries are lists of key and value.  The information printed with `verb > 2` is not modelled, the
warnings are.  `copy.deepcopy` (utils.py 564, 1029) has no counterpart: values do not change.  Options with
shape `()` are never checked for their shape (`if shape:`, utils.py 2160), so arrays pass; how they are used
afterwards is not modelled (they raise `TypeError` where the model needs a number).
-/

namespace Verif.Args
open Verif.Py Verif.Py.W

/-- Values in argument dictionaries. -/
inductive Val where
  | none
  | num (x : ℝ)
  | arr (l : List ℝ)
  | str (s : String)
  | filter (attrs : List String) (F : Transform.Filter)
  | other (k : ℕ)

/-- A dictionary. -/
abbrev Dict := List (String × Val)

/-- `np.array(v, dtype=…)` (utils.py 2159) for `float` and `int`.  Numbers and arrays of
numbers are converted as they are, numbers to `int` by truncation; what happens to other values is left open. -/
structure Conv where
  flt : Val → Except PyErr Val
  int : Val → Except PyErr Val
  flt_num : ∀ x, flt (.num x) = .ok (.num x)
  flt_arr : ∀ l, flt (.arr l) = .ok (.arr l)
  int_num : ∀ x, int (.num x) = .ok (.num (Tem.trunc x))

/-- `str.lower()` (utils.py 560, 1025), for ASCII letters. -/
def lower (s : String) : String := String.ofList (s.toList.map Char.toLower)

/-- Comparison in `_check_min` (utils.py 2187). -/
noncomputable def cutVal (n : ℝ) : Val → Val
  | .num x => .num (if x < n then n else x)
  | .arr l => .arr (l.map fun x => if x < n then n else x)
  | v => v

open Classical in
/-- Whether `_check_min` changes something (utils.py 2187-2189). -/
noncomputable def belowMin (n : ℝ) : Val → Prop
  | .num x => x < n
  | .arr l => ∃ x ∈ l, x < n
  | _ => False

/-- Checks of one argument. -/
inductive Kind where
  /-- `_check_var(…, float, …)` -/
  | flt
  /-- `_check_var(…, int, …)` -/
  | int
  /-- `_check_var(…, int, …)`, then `_check_min` -/
  | intMin (n : ℕ)
  /-- `None`, or `_check_var(…, float, …)` -/
  | optFlt
  /-- `None`, or `_check_var(…, int, …)` -/
  | optInt
  /-- `None`, or `_check_var(…, int, …)` and `_check_min` -/
  | optIntMin (n : ℕ)
  /-- `_check_var(…, float, 1, …, (2,))` -/
  | pair

/-- One statement `targ[key] = check(args.pop(key, default))`. -/
structure Item where
  key : String
  dflt : Val
  kind : Kind

/-- State: remaining arguments and result. -/
structure St where
  args : Dict
  targ : Dict

/-- `args.pop(k, d)`: the value. -/
def popVal (k : String) (d : Val) (args : Dict) : Val := (args.lookup k).getD d

/-- `args.pop(k, d)`: what remains. -/
def popRest (k : String) (args : Dict) : Dict := args.filter fun p => p.1 ≠ k

/-- An exception, or the value. -/
def ofExcept (x : Except PyErr Val) : W Val := ⟨x, []⟩

open Classical in
/-- `_check_min(v, n, 'pts_per_dec', '', verb)`. -/
noncomputable def minVal (n : ℕ) (verb : ℤ) (v : Val) : W Val := do
  say (verb > 0 ∧ belowMin n v) "* WARNING :: pts_per_dec is set to its minimum!"
  pure (cutVal n v)

/-- Checks of one argument (utils.py 584-684, 1034-1234). -/
noncomputable def check (C : Conv) (verb : ℤ) : Kind → Val → W Val
  | .flt, v => ofExcept (C.flt v)
  | .int, v => ofExcept (C.int v)
  | .intMin n, v => do
    let v ← ofExcept (C.int v)
    minVal n verb v
  | .optFlt, .none => pure .none
  | .optFlt, v => ofExcept (C.flt v)
  | .optInt, .none => pure .none
  | .optInt, v => ofExcept (C.int v)
  | .optIntMin _, .none => pure .none
  | .optIntMin n, v => do
    let v ← ofExcept (C.int v)
    minVal n verb v
  | .pair, .arr l => if l.length = 2 then ofExcept (C.flt (.arr l)) else raise .valueError
  | .pair, v => do
    let _ ← ofExcept (C.flt v)
    raise .valueError

/-- One statement. -/
noncomputable def step (C : Conv) (verb : ℤ) (i : Item) (s : St) : W St := do
  let v ← check C verb i.kind (popVal i.key i.dflt s.args)
  pure ⟨popRest i.key s.args, s.targ ++ [(i.key, v)]⟩

/-- A sequence of statements. -/
noncomputable def steps (C : Conv) (verb : ℤ) : List Item → St → W St
  | [], s => pure s
  | i :: l, s => do
    let s ← step C verb i s
    steps C verb l s

/-- Attributes a filter must have, and the exception if not (utils.py 573-581, 1053-1063). -/
def needs (attrs : List String) (v : Val) : W Unit :=
  match v with
  | .filter a _ => if ∀ x ∈ attrs, x ∈ a then pure () else raise .attributeError
  | _ => raise .attributeError

/-- The filter (utils.py 569-571, 1049-1051): names are looked up in the library `lib`. -/
def getFilter (lib : String → Option Val) (v : Val) : W Val :=
  match v with
  | .str s =>
    match lib s with
    | some f => pure f
    | none => raise .attributeError
  | v => pure v

/-- The filter argument. -/
def filterStep (lib : String → Option Val) (dflt : Val) (attrs : List String) (s : St) : W St := do
  let f ← getFilter lib (popVal "dlf" dflt s.args)
  let _ ← needs attrs f
  pure ⟨popRest "dlf" s.args, s.targ ++ [("dlf", f)]⟩

/-- Statements for QWE (utils.py 602-642). -/
noncomputable def hankelQwe : List Item :=
  [⟨"rtol", .num 1e-12, .flt⟩, ⟨"atol", .num 1e-30, .flt⟩, ⟨"nquad", .num 51, .int⟩,
   ⟨"maxint", .num 100, .int⟩, ⟨"pts_per_dec", .num 0, .intMin 0⟩, ⟨"diff_quad", .num 100, .flt⟩,
   ⟨"a", .none, .optFlt⟩, ⟨"b", .none, .optFlt⟩, ⟨"limit", .none, .optInt⟩]

/-- Statements for QUAD (utils.py 662-684). -/
noncomputable def hankelQuadItems : List Item :=
  [⟨"rtol", .num 1e-12, .flt⟩, ⟨"atol", .num 1e-20, .flt⟩, ⟨"limit", .num 500, .int⟩,
   ⟨"a", .num 1e-6, .flt⟩, ⟨"b", .num 0.1, .flt⟩, ⟨"pts_per_dec", .num 40, .intMin 1⟩]

/-- The last check (utils.py 700-702, 1260-1262). -/
def unknown (verb : ℤ) (s : St) : W Dict := do
  say (verb > 0 ∧ s.args ≠ []) "* WARNING :: Unknown arguments"
  pure s.targ

/-- The statements of the chosen Hankel transform. -/
noncomputable def hankelSteps (C : Conv) (lib : String → Option Val) (dflt : Val) (ht : String) (verb : ℤ)
    (s : St) : W St :=
  if ht = "dlf" then do
    let s ← filterStep lib dflt ["base", "j0", "j1", "factor"] s
    step C verb ⟨"pts_per_dec", .num 0, .flt⟩ s
  else if ht = "qwe" then steps C verb hankelQwe s
  else if ht.toList <:+: "quad".toList then steps C verb hankelQuadItems s
  else raise .valueError

/-- `check_hankel` (utils.py 533-703).  `lib` are the attributes of `filters.Hankel()`, `dflt` is the
default filter. -/
noncomputable def checkHankel (C : Conv) (lib : String → Option Val) (dflt : Val) (ht : String) (htarg : Dict)
    (verb : ℤ) : W (String × Dict) := do
  let s ← hankelSteps C lib dflt (lower ht) verb ⟨htarg, []⟩
  let d ← unknown verb s
  pure (lower ht, d)

/-! ## Fourier transform -/

/-- Statements for QWE (utils.py 1093-1133). -/
noncomputable def fourierQwe : List Item :=
  [⟨"rtol", .num 1e-8, .flt⟩, ⟨"atol", .num 1e-20, .flt⟩, ⟨"nquad", .num 21, .int⟩,
   ⟨"maxint", .num 200, .int⟩, ⟨"pts_per_dec", .num 20, .intMin 1⟩, ⟨"diff_quad", .num 100, .int⟩,
   ⟨"a", .none, .optFlt⟩, ⟨"b", .none, .optFlt⟩, ⟨"limit", .none, .optInt⟩]

/-- Statements for FFTLog (utils.py 1159-1172). -/
noncomputable def fftlogItems : List Item :=
  [⟨"pts_per_dec", .num 10, .intMin 1⟩, ⟨"add_dec", .arr [-2, 1], .pair⟩, ⟨"q", .num 0, .flt⟩]

/-- Statements for FFT before `ntot` (utils.py 1210-1216). -/
noncomputable def fftItems : List Item :=
  [⟨"dfreq", .num 0.002, .flt⟩, ⟨"nfreq", .num 2048, .int⟩]

/-- `targ[k]` where a number is needed. -/
def getNum (k : String) (d : Dict) : W ℝ :=
  match d.lookup k with
  | some (.num x) => pure x
  | some _ => raise .typeError
  | none => raise .keyError

/-- `targ[k]` where two numbers are needed. -/
def getPair (k : String) (d : Dict) : W (ℝ × ℝ) :=
  match d.lookup k with
  | some (.arr [x, y]) => pure (x, y)
  | some _ => raise .typeError
  | none => raise .keyError

/-- `targ[k] = v` for an existing key. -/
def setVal (k : String) (v : Val) (d : Dict) : Dict := d.map fun p => if p.1 = k then (k, v) else p

/-- `targ[k] = v` for a new key. -/
def addVal (k : String) (v : Val) (s : St) : St := ⟨s.args, s.targ ++ [(k, v)]⟩

/-- `args.pop(k, None)`, value not used. -/
def drop (k : String) (s : St) : St := ⟨popRest k s.args, s.targ⟩

open Classical in
/-- `nall[np.argmax(nall >= nfreq)]` (utils.py 1219-1221): the first of the thirty powers of two, or 1 if
there is none. -/
noncomputable def nextPow (nfreq : ℝ) : ℝ :=
  match (List.range 30).find? fun i => decide (nfreq ≤ 2 ^ i) with
  | some i => 2 ^ i
  | none => 1

open Classical in
/-- `targ['kind']` (utils.py 1038-1046): the name. -/
noncomputable def kindStep (signal : ℝ) (s : St) : W St :=
  let user := popVal "kind" (.str "sin") s.args
  let kind := if signal > 0 then .str "sin" else if signal < 0 then .str "cos" else user
  match kind with
  | .str k => if k = "sin" ∨ k = "cos" then
      pure ⟨popRest "kind" s.args, s.targ ++ [("kind", .str k)]⟩ else raise .valueError
  | _ => raise .valueError

/-- The filter of the Fourier DLF (utils.py 1048-1063): it needs `base`, `factor` and what is named by
`kind`. -/
def kindFilter (lib : String → Option Val) (dflt : Val) (s : St) : W St :=
  match s.targ.lookup "kind" with
  | some (.str k) => filterStep lib dflt ["base", k, "factor"] s
  | _ => raise .keyError

/-- `np.clip(q, -1, 1)` (utils.py 1173-1175: `np.sign(q)` if `|q| > 1`). -/
noncomputable def clipQ (q : ℝ) : ℝ := if |q| > 1 then SignType.sign q else q

/-- Statements of the chosen Fourier transform (utils.py 1031-1259), without the frequencies.  The
names `np.sin` and `np.cos` are values `str`. -/
noncomputable def timeSteps (C : Conv) (lib : String → Option Val) (dflt : Val) (ft : String) (signal : ℝ)
    (verb : ℤ) (s : St) : W St :=
  if ft = "dlf" then do
    let s ← step C verb ⟨"pts_per_dec", .num (-1), .flt⟩ s
    let s ← kindStep signal s
    kindFilter lib dflt s
  else if ft = "qwe" then
    steps C verb fourierQwe
      (addVal "sincos" (.str (if Tem.isSine signal then "sin" else "cos")) (drop "sincos" s))
  else if ft = "fftlog" then do
    let s ← steps C verb fftlogItems s
    let q ← getNum "q" s.targ
    pure (addVal "mu" (.num (if Tem.isSine signal then 1 / 2 else -(1 / 2)))
      (drop "mu" ⟨s.args, setVal "q" (.num (clipQ q)) s.targ⟩))
  else if ft = "fft" then do
    let s ← steps C verb fftItems s
    let nfreq ← getNum "nfreq" s.targ
    let s ← step C verb ⟨"ntot", .num (nextPow nfreq), .int⟩ s
    let ntot ← getNum "ntot" s.targ
    let s := if nfreq > ntot then ⟨s.args, setVal "ntot" (.num (nextPow nfreq)) s.targ⟩ else s
    step C verb ⟨"pts_per_dec", .none, .optIntMin 1⟩ s
  else raise .valueError

/-- `np.logspace(a, b, n)`; a negative number of points raises. -/
noncomputable def logspace (a b : ℝ) (n : ℤ) : W (List ℝ) :=
  if n < 0 then raise .valueError
  else pure ((List.range n.toNat).map fun i : ℕ => (10 : ℝ) ^ (a + i * ((b - a) / (n - 1))))

/-- `time.min()`, `time.max()`; an empty array raises. -/
noncomputable def minTime (time : List ℝ) : W ℝ :=
  match time.min? with
  | some t => pure t
  | none => raise .valueError
/-- See `minTime`. -/
noncomputable def maxTime (time : List ℝ) : W ℝ :=
  match time.max? with
  | some t => pure t
  | none => raise .valueError

/-- Angular frequencies of the DLF (transform.py 1200-1257), row after row. -/
noncomputable def dlfOmega (F : Transform.Filter) (time : List ℝ) (tmin tmax ppd : ℝ) : List ℝ :=
  if ppd = 0 then time.flatMap fun t => (List.range F.n).map fun k => F.base k / t
  else if ppd < 0 then
    (List.range (Transform.lagPoints F tmin tmax fun i => time.getD i 0).nout).map
      (Transform.lagPoints F tmin tmax fun i => time.getD i 0).points
  else
    (List.range (Transform.splPoints F tmin tmax ppd fun i => time.getD i 0).nout).map
      (Transform.splPoints F tmin tmax ppd fun i => time.getD i 0).points

/-- What `check_time` needs besides: smallest abscissa of the Gauss rule of `n` points, rounding, phase. -/
structure Env where
  gmin : ℝ → ℝ
  round : Fftlog.Rounding
  phase : ℝ → ℝ → ℝ → ℝ

/-- Filter in `targ`. -/
def getDlf (d : Dict) : W Transform.Filter :=
  match d.lookup "dlf" with
  | some (.filter _ F) => pure F
  | _ => raise .attributeError

/-- Frequencies for the DLF (utils.py 1080-1083). -/
noncomputable def dlfFreq (time : List ℝ) (d : Dict) : W (List ℝ) := do
  let F ← getDlf d
  let ppd ← getNum "pts_per_dec" d
  if ppd = 0 then pure ((dlfOmega F time 0 0 ppd).map fun w => w / 2 / Real.pi) else do
    let tmin ← minTime time
    let tmax ← maxTime time
    pure ((dlfOmega F time tmin tmax ppd).map fun w => w / 2 / Real.pi)

/-- `minf` and `maxf` for QWE (utils.py 1152-1154). -/
noncomputable def qweMin (g tmax : ℝ) : ℝ := (⌊10 * Real.logb 10 ((g + 1) * Real.pi / 2 / tmax)⌋ : ℝ) / 10
/-- See `qweMin`. -/
noncomputable def qweMax (maxint tmin : ℝ) : ℝ := (⌈10 * Real.logb 10 (maxint * Real.pi / tmin)⌉ : ℝ) / 10

/-- `xint` of `fourier_qwe` (transform.py 581-584). -/
noncomputable def qweInt (sine : Bool) (i : ℕ) : ℝ :=
  if i = 0 then 1e-20 else i * Real.pi - (if sine then 0 else Real.pi / 2)

/-- `Bx` of `fourier_qwe` (transform.py 592-593): abscissa `g` of the Gauss rule in interval `i`.  The response
is interpolated at the angular frequencies `Bx/time` (transform.py 649). -/
noncomputable def qweBx (sine : Bool) (i : ℕ) (g : ℝ) : ℝ :=
  (qweInt sine (i + 1) - qweInt sine i) / 2 * (g + 1) + qweInt sine i

/-- Frequencies for QWE (utils.py 1151-1155). -/
noncomputable def qweFreq (E : Env) (time : List ℝ) (d : Dict) : W (List ℝ) := do
  let nquad ← getNum "nquad" d
  let maxint ← getNum "maxint" d
  let ppd ← getNum "pts_per_dec" d
  let tmax ← maxTime time
  let tmin ← minTime time
  let a := qweMin (E.gmin nquad) tmax
  let b := qweMax maxint tmin
  logspace a b (Tem.trunc ((b - a) * ppd + 1))

/-- `minf`, `maxf` and `n` for FFTLog (utils.py 1192-1194). -/
noncomputable def fftlogRange (tmin tmax : ℝ) (add : ℝ × ℝ) (ppd : ℝ) : ℝ × ℝ × ℕ :=
  let a := Real.logb 10 (1 / tmax) + add.1
  let b := Real.logb 10 (1 / tmin) + add.2
  (a, b, ⌊(Tem.trunc (b - a) : ℝ) * ppd⌋₊)

/-- Input parameters for FFTLog (utils.py 1191-1198); an `n` below one gives no frequencies. -/
noncomputable def fftlogInput (E : Env) (time : List ℝ) (d : Dict) : W (Fftlog.Input × ℕ) := do
  let ppd ← getNum "pts_per_dec" d
  let add ← getPair "add_dec" d
  let q ← getNum "q" d
  let mu ← getNum "mu" d
  let tmax ← maxTime time
  let tmin ← minTime time
  let r := fftlogRange tmin tmax add ppd
  pure (Fftlog.getInput E.round (E.phase q mu) r.1 r.2.1 r.2.2, r.2.2)

/-- Frequencies for FFT (utils.py 1237-1244). -/
noncomputable def fftFreq (d : Dict) : W (List ℝ) := do
  let dfreq ← getNum "dfreq" d
  let nfreq ← getNum "nfreq" d
  match d.lookup "pts_per_dec" with
  | some (.num ppd) =>
    let a := Real.logb 10 dfreq
    let b := Real.logb 10 (nfreq * dfreq)
    logspace a b (Tem.trunc ((b - a) * ppd + 1))
  | _ => pure ((List.range ⌊nfreq⌋₊).map fun i : ℕ => ((i : ℝ) + 1) * dfreq)

/-- Frequencies, and the state afterwards. -/
noncomputable def timeFreq (E : Env) (ft : String) (time : List ℝ) (s : St) : W (List ℝ × St) :=
  if ft = "dlf" then do
    let f ← dlfFreq time s.targ
    pure (f, s)
  else if ft = "qwe" then do
    let f ← qweFreq E time s.targ
    pure (f, s)
  else if ft = "fftlog" then do
    let i ← fftlogInput E time s.targ
    pure ((List.range i.2).map i.1.freq,
      drop "rk" (drop "kr" (drop "dlnr" (drop "tcalc"
        (addVal "rk" (.num i.1.rk) (addVal "kr" (.num i.1.kr) (addVal "dlnr" (.num i.1.dlnr)
          (addVal "tcalc" (.arr ((List.range i.2).map i.1.tcalc)) s))))))))
  else do
    let f ← fftFreq s.targ
    pure (f, s)

/-- `check_time` after `check_time_only` (utils.py 1024-1265): `time` and `signal` are checked.  Returns
frequencies, method and arguments. -/
noncomputable def checkTime (E : Env) (C : Conv) (lib : String → Option Val) (dflt : Val) (time : List ℝ)
    (signal : ℝ) (ft : String) (ftarg : Dict) (verb : ℤ) : W (List ℝ × String × Dict) := do
  let s ← timeSteps C lib dflt (lower ft) signal verb ⟨ftarg, []⟩
  let r ← timeFreq E (lower ft) time s
  let d ← unknown verb r.2
  pure (r.1, lower ft, d)

/-! ## Keyword arguments -/

/-- `known_keys` (utils.py 2015-2019). -/
def knownKeys : List String :=
  ["depth", "ht", "htarg", "ft", "ftarg", "xdirect", "loop", "signal", "ab", "freqtime", "freq",
   "wavenumber", "solution", "cf", "gain", "msrc", "srcpts", "mrec", "recpts", "strength", "squeeze",
   "bandpass"]

/-- The loop (utils.py 2021-2031): values, what remains of `kwargs`, and `verb`. -/
def kwLoop : List (String × Val) → Dict → Val → List Val × Dict × Val
  | [], kw, verb => ([], kw, verb)
  | (name, d) :: l, kw, verb =>
    let verb := if name = "verb" then popVal name d kw else verb
    let r := kwLoop l (popRest name kw) verb
    (popVal name d kw :: r.1, r.2)

open Classical in
/-- `verb > 0`; `TypeError` if it is not a number. -/
noncomputable def positive (v : Val) : W Bool :=
  match v with
  | .num x => pure (decide (x > 0))
  | _ => raise .typeError

/-- `get_kwargs` (utils.py 1973-2040); `names` and `defaults` are zipped. -/
noncomputable def getKwargs (wanted : List (String × Val)) (kwargs : Dict) : W (List Val) :=
  let r := kwLoop wanted kwargs (.num 2)
  if r.2.1 = [] then pure r.1
  else if ¬ ∀ p ∈ r.2.1, p.1 ∈ knownKeys then raise .typeError
  else do
    let b ← positive r.2.2
    say (b = true) "* WARNING :: Unused **kwargs"
    pure r.1

/-! ## Minimum values -/

/-- `set_minimum` (utils.py 2069-2108). -/
def setMinimum (f t o r a : Option ℝ) (m : Utils.Mins) : Utils.Mins :=
  let m := match f with | some x => { m with minFreq := x } | none => m
  let m := match t with | some x => { m with minTime := x } | none => m
  let m := match o with | some x => { m with minOff := x } | none => m
  let m := match r with | some x => { m with minRes := x } | none => m
  match a with | some x => { m with minAngle := x } | none => m

/-- `get_minimum` (utils.py 2111-2139). -/
def getMinimum (m : Utils.Mins) : List (String × ℝ) :=
  [("min_freq", m.minFreq), ("min_time", m.minTime), ("min_off", m.minOff), ("min_res", m.minRes),
   ("min_angle", m.minAngle)]

end Verif.Args
