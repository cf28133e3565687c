import Verif.Model.Io

/-!
# Model of empymod/filters.py

Objects live in a heap, their position is their identity.  The library `libdlf` is a table: names, names of the
coefficients, values.  Numbers are abstract; `ratio` is `np.around(b / a, 15)`.
-/

namespace Verif.Filters
open Verif.Json Verif.Io

/-- The two wrappers. -/
inductive FType where
  | hankel
  | fourier
deriving DecidableEq

/-- A `DigitalFilter` (filters.py 51-86): attributes with arrays are a table. -/
structure Filter (N : Type) where
  name : List Char
  savename : List Char
  coeffs : List (List Char)
  attrs : List Char → Option (List N)
  factor : Option N

/-- `DigitalFilter.__init__` (filters.py 73-86). -/
def Filter.init {N : Type} (name : List Char) (savename : Option (List Char)) (extra : Option (List (List Char))) :
    Filter N :=
  { name := name
    savename := savename.getD name
    coeffs := ["j0".toList, "j1".toList, "sin".toList, "cos".toList] ++ extra.getD []
    attrs := fun _ => none
    factor := none }

/-- `setattr(self, k, v)` for arrays. -/
def Filter.set {N : Type} (f : Filter N) (k : List Char) (v : List N) : Filter N :=
  { f with attrs := Function.update f.attrs k (some v) }

/-- `libdlf`: names of the filters, `data.values`, `data()`. -/
structure Lib (N : Type) where
  names : FType → List (List Char)
  values : FType → List Char → List (List Char)
  data : FType → List Char → List (List N)

/-- `FILTERS` (filters.py 45-48; `none`: not yet loaded), objects, and the loads in order. -/
structure State (N : Type) where
  cache : FType → List Char → Option ℕ
  heap : List (Filter N)
  loads : List (FType × List Char)

/-- After the import. -/
def start {N : Type} : State N := ⟨fun _ _ => none, [], []⟩

/-- `for i, val in enumerate(['base', ] + data.values): setattr(dlf, val, data()[i])` (filters.py 198-199). -/
def setAll {N : Type} : List (List Char) → List (List N) → Filter N → Except Err (Filter N)
  | [], _, f => .ok f
  | _ :: _, [], _ => .error .index
  | k :: ks, v :: vs, f => setAll ks vs (f.set k v)

/-- `dlf.factor = np.around([dlf.base[1]/dlf.base[0]], 15)` (filters.py 200 and 168). -/
def setFactor {N : Type} (ratio : N → N → N) (f : Filter N) : Except Err (Filter N) :=
  match f.attrs "base".toList with
  | some (a :: b :: _) => .ok { f with factor := some (ratio a b) }
  | _ => .error .index

/-- Loading one filter (filters.py 196-200). -/
def loadFilter {N : Type} (ratio : N → N → N) (L : Lib N) (t : FType) (name : List Char) : Except Err (Filter N) :=
  (setAll ("base".toList :: L.values t name) (L.data t name) (Filter.init name none none)).bind (setFactor ratio)

/-- `_BaseFilter.__getattribute__` (filters.py 186-210) of a wrapper of type `t`; attributes that are not filters
(`available`, `_ftype`) are left out, they are `Err.key` here (`AttributeError` for all other names). -/
def access {N : Type} (ratio : N → N → N) (L : Lib N) (t : FType) (name : List Char) (s : State N) :
    Except Err ℕ × State N :=
  if name ∈ L.names t then
    match s.cache t name with
    | some i => (.ok i, s)
    | none =>
      match loadFilter ratio L t name with
      | .error e => (.error e, s)
      | .ok f =>
        (.ok s.heap.length,
          { cache := fun t' n => if t' = t ∧ n = name then some s.heap.length else s.cache t' n
            heap := s.heap ++ [f]
            loads := s.loads ++ [(t, name)] })
  else (.error .key, s)

/-- What may happen to filters: an access, or an assignment to an attribute of an object by the user. -/
inductive Event (N : Type) where
  | access (t : FType) (name : List Char)
  | assign (i : ℕ) (k : List Char) (v : List N)

/-- The state after an event. -/
def step {N : Type} (ratio : N → N → N) (L : Lib N) (s : State N) : Event N → State N
  | .access t name => (access ratio L t name s).2
  | .assign i k v => { s with heap := s.heap.modify i fun f => f.set k v }

/-- The state after a history. -/
def run {N : Type} (ratio : N → N → N) (L : Lib N) (s : State N) (h : List (Event N)) : State N :=
  h.foldl (step ratio L) s

/-! ## Files -/

/-- `os.path.join(path, name + '_' + val + '.txt')` (filters.py 115, 122, 155, 161) for a name that is no absolute
path. -/
def fileName (path name val : List Char) : List Char := path ++ ['/'] ++ name ++ ['_'] ++ val ++ ".txt".toList

/-- `array.tofile(f, sep="\n")`. -/
def arrayText {N : Type} (M : Nums N) : List N → List Char
  | [] => []
  | [x] => M.write x
  | x :: y :: l => M.write x ++ ['\n'] ++ arrayText M (y :: l)

/-- Words of a text. -/
def words : List Char → List (List Char)
  | [] => []
  | c :: t =>
    if blank c then words t
    else match t with
      | [] => [[c]]
      | d :: _ =>
        if blank d then [c] :: words t
        else match words t with
          | [] => [[c]]
          | w :: ws => (c :: w) :: ws

/-- `np.fromfile(f, sep="\n")`; what cannot be read is an error here (numpy warns and stops). -/
def readArray {N : Type} (M : Nums N) (text : List Char) : Except Err (List N) :=
  match allSome M.read (words text) with
  | none => .error .value
  | some l => .ok l

/-- The loop over the coefficients (filters.py 120-125). -/
def writeCoeffs {N : Type} (M : Nums N) (path : List Char) (f : Filter N) : List (List Char) → Fs → Fs
  | [], fs => fs
  | k :: ks, fs =>
    match f.attrs k with
    | none => writeCoeffs M path f ks fs
    | some v => writeCoeffs M path f ks (Function.update fs (fileName path f.savename k) (some (arrayText M v)))

/-- `DigitalFilter.tofile` (filters.py 88-125), `path` absolute; without base an `AttributeError` (here `Err.key`)
when the file of the base has been created. -/
def toFile {N : Type} (M : Nums N) (path : List Char) (f : Filter N) (fs : Fs) : Except Err Unit × Fs :=
  match f.attrs "base".toList with
  | none => (.error .key, Function.update fs (fileName path f.savename "base".toList) (some []))
  | some b => (.ok (), writeCoeffs M path f f.coeffs
      (Function.update fs (fileName path f.savename "base".toList) (some (arrayText M b))))

/-- The loop over the coefficients (filters.py 160-164). -/
def readCoeffs {N : Type} (M : Nums N) (path : List Char) (fs : Fs) : List (List Char) → Filter N →
    Except Err (Filter N)
  | [], f => .ok f
  | k :: ks, f =>
    match fs (fileName path f.savename k) with
    | none => readCoeffs M path fs ks f
    | some text =>
      match readArray M text with
      | .error e => .error e
      | .ok v => readCoeffs M path fs ks (f.set k v)

/-- `DigitalFilter.fromfile` (filters.py 127-168): the filter afterwards. -/
def fromFile {N : Type} (M : Nums N) (ratio : N → N → N) (path : List Char) (fs : Fs) (f : Filter N) :
    Except Err (Filter N) :=
  match fs (fileName path f.savename "base".toList) with
  | none => .error .notFound
  | some text =>
    match readArray M text with
    | .error e => .error e
    | .ok b =>
      match readCoeffs M path fs f.coeffs (f.set "base".toList b) with
      | .error e => .error e
      | .ok g => setFactor ratio g

end Verif.Filters
