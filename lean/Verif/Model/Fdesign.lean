import Verif.Model.Filters
import Verif.Model.Py
import Mathlib.LinearAlgebra.Matrix.NonsingularInverse
import Mathlib.Analysis.SpecialFunctions.Pow.Real
import Mathlib.Data.EReal.Basic

/-!
# Model of empymod/scripts/fdesign.py

Modelled: `design` without plotting and without `finish`, `_get_min_val`, `_calculate_filter`, `_ls2ar`, `print_result`
(its two numbers), `save_filter`, `load_filter`.  `np.linalg.qr` and `np.linalg.solve` are a contract (`LinAlg`),
`sp.optimize.brute` is the search over its grid.  Exact arithmetic; `NaN` only where a quotient `0/0` is compared.
Compressed files (`.gz`) are files with the same contents.
-/

namespace Verif.Fdesign
open Verif.Json Verif.Io Verif.Filters Verif.Py

/-! ## Grid and base -/

/-- Input of `_ls2ar`: one element, three elements, anything else. -/
inductive LsInput where
  | one (x : ℝ)
  | three (start stop num : ℝ)
  | other

open Classical in
/-- `_ls2ar` (fdesign.py 1386-1408). -/
noncomputable def ls2ar : LsInput → Except PyErr (ℝ × ℝ × ℝ)
  | .other => .error .valueError
  | .one x => .ok (tail x (x + 1) 1)
  | .three a b n => .ok (tail a b n)
where
  /-- Lines 1403-1408. -/
  tail (start stop num : ℝ) : ℝ × ℝ × ℝ :=
    if num < 2 ∨ start = stop then (start, start + 1 / 2, 1)
    else (start, stop + (stop - start) / (num - 1) / 2, (stop - start) / (num - 1))

/-- `np.arange(start, stop, step)` and `np.mgrid[start:stop:step]`. -/
noncomputable def arange (t : ℝ × ℝ × ℝ) : List ℝ :=
  (List.range ⌈(t.2.1 - t.1) / t.2.2⌉₊).map fun i : ℕ => t.1 + i * t.2.2

/-- `base` (fdesign.py 1347). -/
noncomputable def base (n : ℕ) (spacing shift : ℝ) (i : Fin n) : ℝ :=
  Real.exp (spacing * ((i : ℝ) - (n / 2 : ℕ)) + shift)

/-- `np.logspace(a, b, m)`. -/
noncomputable def logspace (a b : ℝ) (m : ℕ) (i : Fin m) : ℝ := (10 : ℝ) ^ (a + i * ((b - a) / ((m : ℝ) - 1)))

/-- `np.log10`. -/
noncomputable def log10 (x : ℝ) : ℝ := Real.log x / Real.log 10

/-- Number of equations, `int(r_def[2]*n)` (fdesign.py 1352). -/
noncomputable def equations (rdef : ℝ × ℝ × ℝ) (n : ℕ) : ℕ := ⌊rdef.2.2 * n⌋₊

/-- `r` of the inversion (fdesign.py 1351-1352). -/
noncomputable def invR (rdef : ℝ × ℝ × ℝ) (n : ℕ) (b : Fin n → ℝ) : Fin (equations rdef n) → ℝ :=
  logspace (log10 (1 / ⨆ i, b i) - rdef.1) (log10 (1 / ⨅ i, b i) + rdef.2.1) _

/-! ## Inversion -/

/-- `np.linalg.qr` (reduced) and `np.linalg.solve`; `none` is a `LinAlgError`. -/
structure LinAlg where
  qr : {m n : ℕ} → Matrix (Fin m) (Fin n) ℝ → Option (Matrix (Fin m) (Fin n) ℝ × Matrix (Fin n) (Fin n) ℝ)
  solve : {n : ℕ} → Matrix (Fin n) (Fin n) ℝ → (Fin n → ℝ) → Option (Fin n → ℝ)
  qr_ok : ∀ {m n} (A : Matrix (Fin m) (Fin n) ℝ) Q R, qr A = some (Q, R) → A = Q * R ∧ Q.transpose * Q = 1
  qr_total : ∀ {m n} (A : Matrix (Fin m) (Fin n) ℝ), (∃ Q : Matrix (Fin m) (Fin n) ℝ, ∃ R : Matrix (Fin n) (Fin n) ℝ,
    A = Q * R ∧ Q.transpose * Q = 1) → (qr A).isSome
  solve_ok : ∀ {n} (R : Matrix (Fin n) (Fin n) ℝ) b x, solve R b = some x → R.mulVec x = b
  solve_total : ∀ {n} (R : Matrix (Fin n) (Fin n) ℝ) b, (solve R b).isSome ↔ R.det ≠ 0

/-- `J` (fdesign.py 1376-1380); with fewer equations than coefficients `rr` is not square and `solve` raises. -/
def invert (L : LinAlg) {m n : ℕ} (lhs : Matrix (Fin m) (Fin n) ℝ) (rhs : Fin m → ℝ) : Fin n → ℝ :=
  if m < n then 0
  else match L.qr lhs with
    | none => 0
    | some (qq, rr) => (L.solve rr (Matrix.vecMul rhs qq)).getD 0

/-- `rhs` of a transform pair: a function; `design` replaces it by its values. -/
inductive Rhs where
  | fn (f : ℝ → ℂ)
  | arr (l : List ℂ)

/-- A transform pair (`Ghosh`, fdesign.py 860-871); `lhs1` is the second kernel of a pair `j2`. -/
structure Pair where
  name : List Char
  lhs : ℝ → ℂ
  lhs1 : ℝ → ℂ
  rhs : Rhs

/-- A designed filter. -/
structure Dlf (n : ℕ) where
  base : Fin n → ℝ
  coef : List Char → Option (Fin n → ℝ)

/-- The loop over the transforms (fdesign.py 1364-1381). -/
noncomputable def coefLoop (L : LinAlg) (reim : ℂ → ℝ) {n m : ℕ} (b : Fin n → ℝ) (r : Fin m → ℝ) :
    List Pair → Dlf n → Except PyErr (Dlf n)
  | [], d => .ok d
  | f :: fs, d =>
    match f.rhs with
    | .arr _ => .error .typeError
    | .fn g => coefLoop L reim b r fs
        { d with coef := Function.update d.coef f.name
                  (some (invert L (fun i k => reim (f.lhs (b k / r i))) fun i => reim (g (r i) * r i))) }

/-- `_calculate_filter` (fdesign.py 1342-1383); the maximum of an empty base is a `ValueError`. -/
noncomputable def calculateFilter (L : LinAlg) (reim : ℂ → ℝ) (rdef : ℝ × ℝ × ℝ) (n : ℕ) (fI : List Pair)
    (spacing shift : ℝ) : Except PyErr (Dlf n) :=
  if n = 0 then .error .valueError
  else coefLoop L reim (base n spacing shift) (invR rdef n (base n spacing shift)) fI
    ⟨base n spacing shift, fun _ => none⟩

/-! ## Rating -/

/-- `np.dot(lhs, J)` for one `r`, `k = dlf.base/r` (fdesign.py 1271-1281). -/
noncomputable def dot {n : ℕ} (b j : Fin n → ℝ) (lhs : ℝ → ℂ) (r : ℝ) : ℂ := ∑ k, lhs (b k / r) * (j k : ℂ)

/-- `rhs` of `_get_min_val` (fdesign.py 1276-1282). -/
noncomputable def response {n : ℕ} (d : Dlf n) (f : Pair) (r : List ℝ) : Except PyErr (List ℂ) :=
  if f.name = "j2".toList then
    match d.coef "j0".toList, d.coef "j1".toList with
    | some j0, some j1 => .ok (r.map fun x => dot d.base j0 f.lhs x / x + dot d.base j1 f.lhs1 x / x ^ 2)
    | _, _ => .error .attributeError
  else match d.coef f.name with
    | some j => .ok (r.map fun x => dot d.base j f.lhs x / x)
    | none => .error .attributeError

/-- `rel_error > error` (fdesign.py 1285-1288) for one value; `0/0` is not larger than anything, `x/0` is. -/
def Bad (error : ℝ) (c f : ℂ) : Prop := if f = 0 then c ≠ 0 else error < ‖(c - f) / f‖

open Classical in
/-- `np.where(rel_error > error)[0]`. -/
noncomputable def badIndices (error : ℝ) (c f : List ℂ) : List ℕ :=
  (List.range c.length).filter fun i => Bad error (c.getD i 0) (f.getD i 0)

open Classical in
/-- `imin0` (fdesign.py 1290-1313). -/
noncomputable def stopIndex (error : ℝ) (c f : List ℂ) : ℕ :=
  if ∀ x ∈ c, x = 0 then 0
  else match badIndices error c f with
    | [] => c.length - 1
    | b :: bs => if 4 < (b :: bs).length then (b :: bs).getD 4 0 - 5 else b - 1

/-- `cvar`. -/
inductive Cvar where
  | amp
  | r
  | other
deriving DecidableEq

/-- `min_val0` (fdesign.py 1316-1319). -/
noncomputable def value (cvar : Cvar) (r : List ℝ) (c : List ℂ) (i : ℕ) : Except PyErr ℝ :=
  match cvar with
  | .amp => match c[i]? with
    | some x => .ok ‖x‖
    | none => .error .indexError
  | _ => match r[i]? with
    | some x => .ok (1 / x)
    | none => .error .indexError

/-- `f.rhs` as an array; the routine is not called otherwise. -/
def Pair.values (f : Pair) : Except PyErr (List ℂ) :=
  match f.rhs with
  | .arr l => .ok l
  | .fn _ => .error .typeError

open Classical in
/-- The loop over the transforms (fdesign.py 1274-1328): `imin`, `min_val`. -/
noncomputable def rateLoop {n : ℕ} (d : Dlf n) (r : List ℝ) (error : ℝ) (cvar : Cvar) :
    List Pair → Option (ℕ × ℝ) → Except PyErr (ℕ × ℝ)
  | [], none => .error .unboundLocal
  | [], some best => .ok best
  | f :: fs, best => do
    let c ← response d f r
    let v ← f.values
    let i := stopIndex error c v
    let x ← value cvar r c i
    match best with
    | none => rateLoop d r error cvar fs (some (i, x))
    | some (j, y) => if y < x then rateLoop d r error cvar fs (some (i, x)) else rateLoop d r error cvar fs (some (j, y))

/-- `np.where(imin == 0, np.inf, min_val)` (fdesign.py 1339). -/
noncomputable def rateOut (b : ℕ × ℝ) : EReal := if b.1 = 0 then ⊤ else (b.2 : EReal)

/-- `_get_min_val` (fdesign.py 1259-1339) for a filter that has been computed. -/
noncomputable def rate {n : ℕ} (d : Dlf n) (r : List ℝ) (error : ℝ) (cvar : Cvar) (fC : List Pair) :
    Except PyErr EReal := do
  let b ← rateLoop d r error cvar fC none
  .ok (rateOut b)

/-! ## Search -/

/-- What `sp.optimize.brute(full_output=True)` returns (without `finish`), and the flag (fdesign.py 411-422); also what
is stored in files. -/
structure Full (N : Type) where
  best : N × N
  minVal : N
  nspace : ℕ
  nshift : ℕ
  spacing : List (List N)
  shift : List (List N)
  vals : List (List N)
  flag : ℕ

open Classical in
/-- First minimum of a table (`np.argmin`). -/
noncomputable def argmin {α : Type} (J : α → EReal) : List α → Option α
  | [] => none
  | c :: l => match argmin J l with
    | none => some c
    | some d => if J c ≤ J d then some c else some d

/-- All of the values, or the first exception. -/
def evalAll {α β : Type} (f : α → Except PyErr β) : List α → Except PyErr (List β)
  | [] => .ok []
  | x :: l => do
    let y ← f x
    let ys ← evalAll f l
    .ok (y :: ys)

/-- `sp.optimize.brute` over the product of two lists. -/
noncomputable def brute (J : ℝ → ℝ → Except PyErr EReal) (S H : List ℝ) (flag : ℕ) : Except PyErr (Full EReal) := do
  let rows ← evalAll (fun s => evalAll (J s) H) S
  let table : List ((ℝ × ℝ) × EReal) :=
    (S.zip rows).flatMap fun sr => (H.zip sr.2).map fun hv => ((sr.1, hv.1), hv.2)
  match argmin (fun c => c.2) table with
  | none => .error .valueError
  | some c => .ok (Full.mk ((c.1.1 : EReal), (c.1.2 : EReal)) c.2 S.length H.length
      (S.map fun s => H.map fun _ => (s : EReal)) (S.map fun _ => H.map fun h => (h : EReal)) rows flag)

/-- `fC[i].rhs = f.rhs(r)` (fdesign.py 405-406) for objects that live in a heap. -/
noncomputable def setRhs (r : List ℝ) : List ℕ → List Pair → Except PyErr (List Pair)
  | [], heap => .ok heap
  | i :: is, heap =>
    match heap[i]? with
    | none => .error .indexError
    | some f => match f.rhs with
      | .arr _ => .error .typeError
      | .fn g => setRhs r is (heap.set i { f with rhs := .arr (r.map g) })

/-- Parameters of `design` beside transform pairs, spacing and shift. -/
structure Params where
  r : List ℝ
  rdef : ℝ × ℝ × ℝ
  reim : ℂ → ℝ
  cvar : Cvar
  error : ℝ

/-- The objects `fC` of a call, and the heap with the copies (fdesign.py 381-382). -/
def targets (heap : List Pair) (fI : List ℕ) (fC : Option (List ℕ)) : List ℕ × List Pair :=
  match fC with
  | some (i :: is) => (i :: is, heap)
  | _ => ((List.range fI.length).map (heap.length + ·), heap ++ fI.filterMap (heap[·]?))

/-- The objects of a list. -/
def objects (heap : List Pair) (is : List ℕ) : List Pair := is.filterMap (heap[·]?)

/-- Steps 2 and 3 of `design` (fdesign.py 402-430). -/
noncomputable def designMain (L : LinAlg) (P : Params) (n : ℕ) (S H : ℝ × ℝ × ℝ) (fI : List ℕ) (fC : List ℕ)
    (heap : List Pair) : Except PyErr (Dlf n × Full EReal) := do
  let full ← brute (fun s h => do
      let d ← calculateFilter L P.reim P.rdef n (objects heap fI) s h
      rate d P.r P.error P.cvar (objects heap fC)) (arange S) (arange H) (if P.cvar = .r then 1 else 0)
  let d ← calculateFilter L P.reim P.rdef n (objects heap fI) full.best.1.toReal full.best.2.toReal
  .ok (d, full)

/-- `design` (fdesign.py 256-475) for transform pairs that are objects of the heap; `finish=False`, `plot=0`,
`save=False`.  Result and heap afterwards (the heap is not described
after an exception). -/
noncomputable def design (L : LinAlg) (P : Params) (n : ℕ) (spacing shift : LsInput) (fI : List ℕ) (fC : Option (List ℕ))
    (heap0 : List Pair) : Except PyErr (Dlf n × Full EReal) × List Pair :=
  let (fC, heap) := targets heap0 fI fC
  match objects heap fI with
  | [] => (.error .indexError, heap)
  | f :: _ =>
    if f.name = "j2".toList then (.error .valueError, heap)
    else match ls2ar spacing with
      | .error e => (.error e, heap)
      | .ok S => match ls2ar shift with
        | .error e => (.error e, heap)
        | .ok H => match setRhs P.r fC heap with
          | .error e => (.error e, heap)
          | .ok heap' => (designMain L P n S H fI fC heap', heap')

/-! ## What is printed -/

/-- `spacing` and `shift` of `print_result` without `full` (fdesign.py 697-698). -/
noncomputable def printed (b : List ℝ) : Except PyErr (ℝ × ℝ) :=
  if b.length < 2 then .error .indexError
  else .ok (Real.log (b.getD (b.length - 1) 0 / b.getD (b.length - 2) 0), Real.log (b.getD ((b.length + 1) / 2 - 1) 0))

/-! ## Files -/

/-- Numbers as `np.savetxt` writes them (`'%.18e'`, also `inf` and `nan`) and `np.loadtxt` reads them; `toNat` is
`int`. -/
structure RowNums (N : Type) where
  write : N → List Char
  read : List Char → Option N
  plain : ∀ x, ∀ c ∈ write x, blank c = false ∧ c ≠ '#'
  nonempty : ∀ x, write x ≠ []
  read_write : ∀ x, read (write x) = some x
  ofNat : ℕ → N
  toNat : N → Except Err ℕ
  toNat_ofNat : ∀ n, toNat (ofNat n) = .ok n

/-- `name.split('.')[0]`. -/
def stem (name : List Char) : List Char := name.takeWhile (· ≠ '.')

/-- `fullfile` (fdesign.py 490-494, 555-560). -/
def fullName (path name : List Char) : List Char :=
  path ++ ['/'] ++ stem name ++ "_full.txt".toList ++ if name.count '.' = 1 then ".gz".toList else []

/-- Lines of the header (fdesign.py 500-516). -/
def headerLines (nspace nshift : ℕ) : List (List Char) :=
  ["Full inversion output from empymod.fdesign.design".toList,
    "Line 11: Nr of spacing values".toList,
    "Line 12: Nr of shift values".toList,
    "Line 13: Best spacing value".toList,
    "Line 14: Best shift value".toList,
    "Line 15: Min amplitude or max offset".toList,
    "Lines 16-".toList ++ digits (nspace + 15) ++ ": Spacing matrix (".toList ++ digits nspace ++ " x ".toList ++
      digits nshift ++ [')'],
    "Lines ".toList ++ digits (nspace + 16) ++ ['-'] ++ digits (2 * nspace + 15) ++ ": Spacing matrix (".toList ++
      digits nspace ++ " x ".toList ++ digits nshift ++ [')'],
    "Lines ".toList ++ digits (2 * nspace + 16) ++ ['-'] ++ digits (3 * nspace + 15) ++ ": Spacing matrix (".toList ++
      digits nspace ++ " x ".toList ++ digits nshift ++ [')'],
    "Line ".toList ++ digits (3 * nspace + 16) ++ ": Integer: 0: min amp, 1: max r".toList]

/-- `np.r_[x, np.zeros(nshift-1)]`. -/
def padRow {N : Type} (F : RowNums N) (nshift : ℕ) (x : N) : List N := x :: List.replicate (nshift - 1) (F.ofNat 0)

/-- `fullsave` (fdesign.py 519-529). -/
def fullRows {N : Type} (F : RowNums N) (f : Full N) : List (List N) :=
  [padRow F f.nshift (F.ofNat f.nspace), padRow F f.nshift (F.ofNat f.nshift), padRow F f.nshift f.best.1,
    padRow F f.nshift f.best.2, padRow F f.nshift f.minVal] ++ f.spacing ++ f.shift ++ f.vals ++
    [padRow F f.nshift (F.ofNat f.flag)]

/-- A row of `np.savetxt`. -/
def rowText {N : Type} (F : RowNums N) : List N → List Char
  | [] => []
  | [x] => F.write x
  | x :: y :: l => F.write x ++ ' ' :: rowText F (y :: l)

/-- `np.savetxt(fullfile, fullsave, header=header)`. -/
def fullText {N : Type} (F : RowNums N) (f : Full N) : List Char :=
  (((headerLines f.nspace f.nshift).map fun l => "# ".toList ++ l) ++ (fullRows F f).map (rowText F)).flatMap
    fun l => l ++ ['\n']

/-- `save_filter` (fdesign.py 478-532), `path` absolute. -/
def saveFilter {N : Type} (M : Nums N) (F : RowNums N) (path name : List Char) (f : Filters.Filter N) (full : Option (Full N))
    (fs : Fs) : Except Err Unit × Fs :=
  match toFile M path f fs with
  | (.error e, fs) => (.error e, fs)
  | (.ok (), fs) =>
    match full with
    | none => (.ok (), fs)
    | some u =>
      -- `np.zeros(-1)`, `np.vstack` of rows of different lengths
      if u.nshift = 0 ∨ ∃ row ∈ fullRows F u, row.length ≠ u.nshift then (.error .value, fs)
      else (.ok (), Function.update fs (fullName path name) (some (fullText F u)))

/-- Arrays `np.loadtxt` returns: dimensions of length one are removed. -/
inductive Loaded (N : Type) where
  | flat (l : List N)
  | table (l : List (List N))

/-- `np.loadtxt(fullfile)`. -/
def loadTable {N : Type} (F : RowNums N) (text : List Char) : Except Err (Loaded N) :=
  match allSome (fun l => allSome F.read (words l)) (dataLines text) with
  | none => .error .value
  | some rows =>
    if ∀ x ∈ rows, ∀ y ∈ rows, x.length = y.length then
      if rows.length ≤ 1 ∨ ∀ x ∈ rows, x.length = 1 then .ok (.flat rows.flatten) else .ok (.table rows)
    else .error .value

/-- `out[i][j]`; numbers cannot be indexed. -/
def Loaded.cell {N : Type} (out : Loaded N) (i j : ℕ) : Except Err N :=
  match out with
  | .flat _ => .error .index
  | .table rows => match rows[i]? with
    | none => .error .index
    | some row => match row[j]? with
      | none => .error .index
      | some x => .ok x

/-- `out[a:a+n, :]`. -/
def Loaded.rows {N : Type} (out : Loaded N) (a n : ℕ) : Except Err (List (List N)) :=
  match out with
  | .flat _ => .error .index
  | .table rows => .ok ((rows.drop a).take n)

/-- Assignment to an array of `n` times `m` values, without broadcasting. -/
def fitInto {N : Type} (n m : ℕ) (rows : List (List N)) : Except Err (List (List N)) :=
  if rows.length = n ∧ ∀ x ∈ rows, x.length = m then .ok rows else .error .value

/-- The tuple (fdesign.py 568-576). -/
def collect {N : Type} (F : RowNums N) (out : Loaded N) : Except Err (Full N) := do
  let nspace ← (out.cell 0 0).bind F.toNat
  let nshift ← (out.cell 1 0).bind F.toNat
  let spacing ← (out.rows 5 nspace).bind (fitInto nspace nshift)
  let shift ← (out.rows (nspace + 5) nspace).bind (fitInto nspace nshift)
  let b1 ← out.cell 2 0
  let b2 ← out.cell 3 0
  let m ← out.cell 4 0
  let vals ← out.rows (2 * nspace + 5) nspace
  let flag ← (out.cell (3 * nspace + 5) 0).bind F.toNat
  .ok ⟨(b1, b2), m, nspace, nshift, spacing, shift, vals, flag⟩

/-- `load_filter` (fdesign.py 535-580); `full` is not there if it was not asked for or there is no file. -/
def loadFilter {N : Type} (M : Nums N) (F : RowNums N) (ratio : N → N → N) (path name : List Char)
    (extra : Option (List (List Char))) (full : Bool) (fs : Fs) : Except Err (Filters.Filter N × Option (Full N)) := do
  let f ← fromFile M ratio path fs (Filters.Filter.init (stem name) none extra)
  if full then
    match fs (fullName path name) with
    | none => .ok (f, none)
    | some text => do
      let out ← loadTable F text
      let u ← collect F out
      .ok (f, some u)
  else .ok (f, none)

end Verif.Fdesign
