import Mathlib.Data.List.DropRight
import Verif.Model.Json

/-!
# Model of empymod/io.py

Files are functions from paths to texts.  `Env` fixes what the routines take from elsewhere: `os.path.abspath`,
how numbers are written and read, date and version.  Not modelled: keyword arguments that are passed on to
`np.savetxt` and `json.dump`, encodings, permissions, and Python dictionaries with repeated keys (there are none).
Reading translates `\r\n` and `\r` to `\n`, as Python does.
-/

namespace Verif.Io
open Verif.Json

/-- Exceptions. -/
inductive Err where
  | value
  | type
  | index
  | key
  | notFound
deriving DecidableEq

/-- Contents of files; `none`: no such file. -/
abbrev Fs := List Char → Option (List Char)

/-- Numbers of the plain-text format (`'%+.18e'`), complex ones with `j` at the end. -/
structure TxtNums (N : Type) extends Nums N where
  readC : List Char → Option (N × N)
  readC_write : ∀ x y, readC (write x ++ write y ++ ['j']) = some (x, y)

/-- The surroundings. -/
structure Env (N : Type) where
  abspath : List Char → List Char
  json : Nums N
  txt : TxtNums N
  date : List Char
  version : List Char

/-- `fname.endswith(ext)`. -/
def endsWith (ext : String) (fname : List Char) : Bool := ext.toList.isSuffixOf fname

/-! ## Input -/

/-- Values that are passed to the encoder. -/
inductive PyVal (N : Type) where
  | none
  | bool (b : Bool)
  | num (x : N)
  | str (s : List Char)
  | list (l : List (PyVal N))
  | dict (l : List (List Char × PyVal N))
  | complex (re im : N)
  | ndarray (shape : List ℕ) (flat : List N)
  | ndcomplex (shape : List ℕ) (re im : List N)
  | filter (name : List Char)
  | other

/-- `l` in `n` pieces of length `k`. -/
def chunks {α : Type} (n k : ℕ) (l : List α) : List (List α) :=
  (List.range n).map fun i => (l.drop (i * k)).take k

/-- `ndarray.tolist()`. -/
def tolist {N : Type} : List ℕ → List N → Json N
  | [], l => match l with
    | x :: _ => .num x
    | [] => .null
  | n :: s, l => .arr ((chunks n s.prod l).map (tolist s))

mutual
/-- `_ComplexNumPyEncoder` (io.py 256-282) together with the encoder of `json`; `none` is `TypeError`. -/
def encode {N : Type} : PyVal N → Option (Json N)
  | .none => some .null
  | .bool b => some (.bool b)
  | .num x => some (.num x)
  | .str s => some (.str s)
  | .list l => (encodeList l).map .arr
  | .dict l => (encodeDict l).map .obj
  | .complex x y => some (.arr [.num x, .num y])
  | .ndarray s l => some (tolist s l)
  | .ndcomplex s x y => some (.arr [tolist s x, tolist s y])
  | .filter n => some (.str n)
  | .other => none
/-- The items of a list. -/
def encodeList {N : Type} : List (PyVal N) → Option (List (Json N))
  | [] => some []
  | x :: l => match encode x, encodeList l with
    | some y, some m => some (y :: m)
    | _, _ => none
/-- The items of a dictionary. -/
def encodeDict {N : Type} : List (List Char × PyVal N) → Option (List (List Char × Json N))
  | [] => some []
  | (k, x) :: l => match encode x, encodeDict l with
    | some y, some m => some ((k, y) :: m)
    | _, _ => none
end

/-- `json.dumps({k: v}, cls=_ComplexNumPyEncoder)[1:-1]` (io.py 70). -/
def dumpsPair {N : Type} (E : Env N) (k : List Char) (v : Json N) : List Char :=
  ((write E.json compact 0 (.obj [(k, v)])).drop 1).dropLast

/-- The loop (io.py 67-71); `none` is the `TypeError` of the encoder. -/
def inputLoop {N : Type} (E : Env N) : List (List Char × PyVal N) → List Char → Option (List Char)
  | [], out => some out
  | (k, v) :: l, out =>
    match encode v with
    | none => none
    | some v => inputLoop E l (out ++ "\n  ".toList ++ dumpsPair E k v ++ [','])

/-- `save_input` (io.py 37-79). -/
def saveInput {N : Type} (E : Env N) (fname : List Char) (data : List (List Char × PyVal N)) (fs : Fs) :
    Except Err Unit × Fs :=
  let fname := E.abspath fname
  if endsWith ".json" fname then
    match inputLoop E data ['{'] with
    | none => (.error .type, fs)
    | some out => (.ok (), Function.update fs fname (some (out.dropLast ++ "\n}".toList)))
  else (.error .value, fs)

/-- Universal newlines. -/
def universal : List Char → List Char
  | [] => []
  | '\r' :: '\n' :: t => '\n' :: universal t
  | '\r' :: t => '\n' :: universal t
  | c :: t => c :: universal t

/-- `json.load(f)`; `JSONDecodeError` is a `ValueError`.  Universal newlines do not matter here: outside of strings
`\r` is white space like `\n`, within strings both are invalid. -/
def jsonLoad {N : Type} (E : Env N) (text : List Char) : Except Err (Json N) :=
  match load E.json text with
  | none => .error .value
  | some v => .ok v

/-- `load_input` (io.py 82-112). -/
def loadInput {N : Type} (E : Env N) (fname : List Char) (fs : Fs) : Except Err (Json N) :=
  let fname := E.abspath fname
  if endsWith ".json" fname then
    match fs fname with
    | none => .error .notFound
    | some text => jsonLoad E text
  else .error .value

/-! ## Data -/

/-- Entries in C-order. -/
inductive Values (N : Type) where
  | real (l : List N)
  | cplx (re im : List N)

/-- An array. -/
structure Array (N : Type) where
  shape : List ℕ
  dtype : List Char
  values : Values N

/-- Decimal digits. -/
def digits (n : ℕ) : List Char := (Nat.toDigits 10 n)

/-- `str(shape)` for three numbers. -/
def showShape (a b c : ℕ) : List Char :=
  '(' :: digits a ++ ", ".toList ++ digits b ++ ", ".toList ++ digits c ++ [')']

/-- Meta information (io.py 158-164). -/
def metaInfo {N : Type} (E : Env N) (a b c : ℕ) (dtype info : List Char) : List (List Char × List Char) :=
  [("date".toList, E.date), ("version".toList, E.version), ("shape".toList, showShape a b c),
   ("dtype".toList, dtype), ("info".toList, info)]

/-- `f"# {k}:{' '+v if v else ''}\n"` (io.py 182). -/
def metaLine (k v : List Char) : List Char :=
  "# ".toList ++ k ++ [':'] ++ (if v = [] then [] else ' ' :: v) ++ ['\n']

/-- Tokens with `', '` between them. -/
def joinComma : List (List Char) → List Char
  | [] => []
  | [x] => x
  | x :: y :: l => x ++ ", ".toList ++ joinComma (y :: l)

/-- Tokens of the entries (io.py 170-172). -/
def tokens {N : Type} (T : TxtNums N) : Values N → List (List Char)
  | .real l => l.map T.write
  | .cplx re im => (re.zip im).map fun p => T.write p.1 ++ T.write p.2 ++ ['j']

/-- `np.savetxt` of the rows (io.py 185-186), after the line `# data`. -/
def rows {N : Type} (T : TxtNums N) (n c : ℕ) (v : Values N) : List Char :=
  ((chunks n c (tokens T v)).map fun r => joinComma r ++ ['\n']).flatten

/-- The header of the text file. -/
def header {N : Type} (E : Env N) (a b c : ℕ) (dtype info : List Char) : List Char :=
  ((metaInfo E a b c dtype info).map fun p => metaLine p.1 p.2).flatten

/-- Data as they are given to the JSON encoder. -/
def encodeData {N : Type} (s : List ℕ) : Values N → Json N
  | .real l => tolist s l
  | .cplx re im => .arr [tolist s re, tolist s im]

/-- `save_data` (io.py 115-193).  If there are no columns `reshape((-1, 0))` raises when the header has been
written. -/
def saveData {N : Type} (E : Env N) (fname : List Char) (data : Array N) (info : List Char) (fs : Fs) :
    Except Err Unit × Fs :=
  match data.shape with
  | [a, b, c] =>
    let fname := E.abspath fname
    if endsWith ".txt" fname then
      let head := header E a b c data.dtype info
      if c = 0 then (.error .value, Function.update fs fname (some head))
      else (.ok (), Function.update fs fname
        (some (head ++ "# data\n".toList ++ rows E.txt (a * b) c data.values)))
    else if endsWith ".json" fname then
      (.ok (), Function.update fs fname (some (write E.json (indented 2) 0
        (.obj (((metaInfo E a b c data.dtype info).map fun p => (p.1, .str p.2)) ++
          [("data".toList, encodeData [a, b, c] data.values)])))))
    else (.error .value, fs)
  | _ => (.error .value, fs)

/-- Lines without their ends; what follows the last `\n` is a line if it is not empty. -/
def lines : List Char → List (List Char)
  | [] => []
  | c :: t =>
    if c = '\n' then [] :: lines t
    else match lines t with
      | [] => [[c]]
      | l :: ls => (c :: l) :: ls

/-- `line.split(':', maxsplit=1)`. -/
def splitColon (line : List Char) : Option (List Char × List Char) :=
  if ':' ∈ line then some (line.takeWhile (· ≠ ':'), (line.dropWhile (· ≠ ':')).drop 1) else none

/-- White space of `str.rstrip` (ASCII). -/
def blank (c : Char) : Bool := c = ' ' ∨ c = '\t' ∨ c = '\n' ∨ c = '\r' ∨ c.toNat = 11 ∨ c.toNat = 12

/-- `s.rstrip()`. -/
def rstrip (s : List Char) : List Char := s.rdropWhile blank

/-- `s.strip()`. -/
def strip (s : List Char) : List Char := rstrip (s.dropWhile blank)

/-- `'data' in line`. -/
def hasData (line : List Char) : Bool := decide ("data".toList <:+: line)

/-- The loop over the header (io.py 224-228). -/
def readMeta : List (List Char) → List (List Char × List Char) → Except Err (List (List Char × List Char))
  | [], m => .ok m
  | l :: ls, m =>
    if hasData l then .ok m
    else match splitColon l with
      | none => .error .value
      | some (k, v) =>
        readMeta ls ((k.dropWhile (fun c => c = '#' ∨ c = ' '), rstrip (v.dropWhile (· = ' '))) :: m)

/-- `int(s)` of digits with white space around; the sign is not modelled. -/
def readNat (s : List Char) : Option ℕ :=
  let d := strip s
  if d ≠ [] ∧ ∀ c ∈ d, c.isDigit then some (d.foldl (fun n c => 10 * n + (c.toNat - 48)) 0) else none

/-- `s.split(',')`. -/
def splitComma : List Char → List (List Char)
  | [] => [[]]
  | c :: t =>
    if c = ',' then [] :: splitComma t
    else match splitComma t with
      | [] => [[c]]
      | l :: ls => (c :: l) :: ls

/-- `re.split(r'\(|\)', s)[1]`. -/
def betweenParens (s : List Char) : Option (List Char) :=
  let paren : Char → Bool := fun c => decide (c = '(' ∨ c = ')')
  match s.dropWhile fun c => !paren c with
  | [] => none
  | _ :: t => some (t.takeWhile fun c => !paren c)

/-- All of them, or nothing. -/
def allSome {α β : Type} (f : α → Option β) : List α → Option (List β)
  | [] => some []
  | x :: l => match f x, allSome f l with
    | some y, some m => some (y :: m)
    | _, _ => none

/-- Lines of `np.loadtxt` with something in them, after comments are removed. -/
def dataLines (text : List Char) : List (List Char) :=
  ((lines text).map fun l => strip (l.takeWhile (· ≠ '#'))).filter (· ≠ [])

/-- Rows of `np.loadtxt`: tokens, all rows of the same length; flat. -/
def loadTokens (text : List Char) : Except Err (List (List Char)) :=
  let r := (dataLines text).map fun l => (splitComma l).map strip
  if ∀ x ∈ r, ∀ y ∈ r, x.length = y.length then .ok r.flatten else .error .value

/-- `'complex' in dtype`. -/
def isComplex (dtype : List Char) : Bool := decide ("complex".toList <:+: dtype)

/-- `np.loadtxt(…)` with its values read. -/
def loadValues {N : Type} (T : TxtNums N) (dtype : List Char) (toks : List (List Char)) : Except Err (Values N) :=
  if isComplex dtype then
    match allSome T.readC toks with
    | none => .error .value
    | some l => .ok (.cplx (l.map Prod.fst) (l.map Prod.snd))
  else
    match allSome T.read toks with
    | none => .error .value
    | some l => .ok (.real l)

/-- Number of entries. -/
def Values.length {N : Type} : Values N → ℕ
  | .real l => l.length
  | .cplx re _ => re.length

/-- `.reshape(shape)`. -/
def reshape {N : Type} (shape : List ℕ) (v : Values N) : Except Err (List ℕ × Values N) :=
  if v.length = shape.prod then .ok (shape, v) else .error .value

/-- `load_data` of a text file (io.py 220-233). -/
def loadTxt {N : Type} (E : Env N) (text : List Char) : Except Err (List ℕ × Values N) := do
  let text := universal text
  let m ← readMeta (lines text) []
  match m.lookup "shape".toList with
  | none => .error .key
  | some s =>
    match betweenParens s with
    | none => .error .index
    | some s =>
      match allSome readNat (splitComma s) with
      | none => .error .value
      | some shape =>
        match m.lookup "dtype".toList with
        | none => .error .key
        | some dtype => do
          let toks ← loadTokens text
          let v ← loadValues E.txt dtype toks
          reshape shape v

mutual
/-- `np.array` of nested lists: shape and entries; `none` if they are ragged or no numbers. -/
def npArray {N : Type} : Json N → Option (List ℕ × List N)
  | .num x => some ([], [x])
  | .arr l =>
    match npArrays l with
    | none => none
    | some [] => some ([0], [])
    | some (x :: r) =>
      if ∀ y ∈ r, y.1 = x.1 then some ((r.length + 1) :: x.1, x.2 ++ (r.map Prod.snd).flatten) else none
  | _ => none
/-- The items. -/
def npArrays {N : Type} : List (Json N) → Option (List (List ℕ × List N))
  | [] => some []
  | x :: l => match npArray x, npArrays l with
    | some y, some m => some (y :: m)
    | _, _ => none
end

/-- `inpdat[k]`. -/
def getItem {N : Type} (k : String) : Json N → Except Err (Json N)
  | .obj l => match l.lookup k.toList with
    | some v => .ok v
    | none => .error .key
  | _ => .error .type

/-- `load_data` of a JSON file (io.py 239-246). -/
def loadJson {N : Type} (E : Env N) (text : List Char) : Except Err (List ℕ × Values N) := do
  let inp ← jsonLoad E text
  let d ← getItem "data" inp
  match npArray d with
  | none => .error .value
  | some (shape, flat) => do
    let t ← getItem "dtype" inp
    match t with
    | .str dtype =>
      if isComplex dtype then
        match shape with
        | n :: s =>
          if 2 ≤ n then .ok (s, .cplx (flat.take s.prod) ((flat.drop s.prod).take s.prod)) else .error .index
        | [] => .error .index
      else .ok (shape, .real flat)
    | _ => .error .type

/-- `load_data` (io.py 196-253). -/
def loadData {N : Type} (E : Env N) (fname : List Char) (fs : Fs) : Except Err (List ℕ × Values N) :=
  let fname := E.abspath fname
  if endsWith ".txt" fname then
    match fs fname with
    | none => .error .notFound
    | some text => loadTxt E text
  else if endsWith ".json" fname then
    match fs fname with
    | none => .error .notFound
    | some text => loadJson E text
  else .error .value

end Verif.Io
