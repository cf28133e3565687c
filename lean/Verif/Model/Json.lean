import Mathlib.Data.List.Basic

/-!
# Model of the `json` module of Python as used in empymod/io.py

Character by character: `json.dumps` with `ensure_ascii=True` (the default; compact or indented) and
`json.load`.  Numbers are written and read by two functions that invert each other (`float.__repr__`,
`int.__repr__`, `float`, `int`).  Not modelled: `NaN`, `Infinity`, keys that are not strings, lone
surrogates, and the positions in error messages.
-/

namespace Verif.Json

/-- JSON values; objects are lists of pairs in order. -/
inductive Json (N : Type) where
  | null
  | bool (b : Bool)
  | num (x : N)
  | str (s : List Char)
  | arr (l : List (Json N))
  | obj (l : List (List Char × Json N))

/-- Characters of numbers. -/
def numChar (c : Char) : Bool := c ∈ "0123456789+-.eE".toList

/-- Writing and reading numbers. -/
structure Nums (N : Type) where
  write : N → List Char
  read : List Char → Option N
  chars : ∀ x, ∀ c ∈ write x, numChar c = true
  nonempty : ∀ x, write x ≠ []
  read_write : ∀ x, read (write x) = some x

/-! ## Writing -/

/-- A hexadecimal digit, lower case. -/
def hexChar (d : ℕ) : Char := "0123456789abcdef".toList.getD d '0'

/-- `'\\u{0:04x}'.format(n)`. -/
def uEsc (n : ℕ) : List Char :=
  ['\\', 'u', hexChar (n / 4096 % 16), hexChar (n / 256 % 16), hexChar (n / 16 % 16), hexChar (n % 16)]

/-- One character of a string (`py_encode_basestring_ascii`). -/
def escChar (c : Char) : List Char :=
  if c = '"' then ['\\', '"'] else if c = '\\' then ['\\', '\\'] else if c = '\n' then ['\\', 'n']
  else if c = '\r' then ['\\', 'r'] else if c = '\t' then ['\\', 't'] else if c = Char.ofNat 12 then ['\\', 'f']
  else if c = Char.ofNat 8 then ['\\', 'b']
  else if 32 ≤ c.toNat ∧ c.toNat ≤ 126 then [c]
  else if c.toNat < 65536 then uEsc c.toNat
  else uEsc (55296 + (c.toNat - 65536) / 1024 % 1024) ++ uEsc (56320 + (c.toNat - 65536) % 1024)

/-- A string with its quotes. -/
def writeStr (s : List Char) : List Char := '"' :: s.flatMap escChar ++ ['"']

/-- White space of a list or an object at a depth: after the opening bracket, after a comma, before the closing
bracket. -/
structure Style where
  opening : ℕ → List Char
  comma : ℕ → List Char
  closing : ℕ → List Char

/-- `json.dumps` without `indent`: `', '`. -/
def compact : Style := ⟨fun _ => [], fun _ => [' '], fun _ => []⟩

/-- `indent=n`: new lines. -/
def indented (n : ℕ) : Style :=
  ⟨fun d => '\n' :: List.replicate (n * (d + 1)) ' ', fun d => '\n' :: List.replicate (n * (d + 1)) ' ',
    fun d => '\n' :: List.replicate (n * d) ' '⟩

mutual
/-- `json.dumps`. -/
def write {N : Type} (M : Nums N) (σ : Style) (d : ℕ) : Json N → List Char
  | .null => "null".toList
  | .bool true => "true".toList
  | .bool false => "false".toList
  | .num x => M.write x
  | .str s => writeStr s
  | .arr [] => ['[', ']']
  | .arr (x :: l) => '[' :: σ.opening d ++ write M σ (d + 1) x ++ writeItems M σ d l
  | .obj [] => ['{', '}']
  | .obj ((k, x) :: l) =>
    '{' :: σ.opening d ++ writeStr k ++ [':', ' '] ++ write M σ (d + 1) x ++ writePairs M σ d l
/-- The rest of a list. -/
def writeItems {N : Type} (M : Nums N) (σ : Style) (d : ℕ) : List (Json N) → List Char
  | [] => σ.closing d ++ [']']
  | x :: l => ',' :: σ.comma d ++ write M σ (d + 1) x ++ writeItems M σ d l
/-- The rest of an object. -/
def writePairs {N : Type} (M : Nums N) (σ : Style) (d : ℕ) : List (List Char × Json N) → List Char
  | [] => σ.closing d ++ ['}']
  | (k, x) :: l =>
    ',' :: σ.comma d ++ writeStr k ++ [':', ' '] ++ write M σ (d + 1) x ++ writePairs M σ d l
end

/-! ## Reading -/

/-- White space. -/
def isWs (c : Char) : Bool := c = ' ' ∨ c = '\t' ∨ c = '\n' ∨ c = '\r'

/-- Skip white space. -/
def skip (s : List Char) : List Char := s.dropWhile isWs

/-- Value of a hexadecimal digit. -/
def hexVal (c : Char) : Option ℕ :=
  if 48 ≤ c.toNat ∧ c.toNat ≤ 57 then some (c.toNat - 48)
  else if 97 ≤ c.toNat ∧ c.toNat ≤ 102 then some (c.toNat - 87)
  else if 65 ≤ c.toNat ∧ c.toNat ≤ 70 then some (c.toNat - 55)
  else none

/-- `_decode_uXXXX`: four hexadecimal digits. -/
def hex4 : List Char → Option (ℕ × List Char)
  | a :: b :: c :: d :: t =>
    match hexVal a, hexVal b, hexVal c, hexVal d with
    | some a, some b, some c, some d => some (((a * 16 + b) * 16 + c) * 16 + d, t)
    | _, _, _, _ => none
  | _ => none

/-- `\uXXXX`, with a second one after a high surrogate; what follows `\u`. -/
def unicode (s : List Char) : Option (Char × List Char) :=
  match hex4 s with
  | none => none
  | some (n, t) =>
    if 55296 ≤ n ∧ n ≤ 56319 then
      match t with
      | '\\' :: 'u' :: u =>
        match hex4 u with
        | none => none
        | some (m, v) =>
          if 56320 ≤ m ∧ m ≤ 57343 then
            some (Char.ofNat (65536 + ((n - 55296) * 1024 + (m - 56320))), v)
          else some (Char.ofNat n, t)
      | _ => some (Char.ofNat n, t)
    else some (Char.ofNat n, t)

/-- The character after a backslash that is not `u`. -/
def plainEsc (c : Char) : Option Char :=
  if c = '"' then some '"' else if c = '\\' then some '\\' else if c = '/' then some '/'
  else if c = 'b' then some (Char.ofNat 8) else if c = 'f' then some (Char.ofNat 12)
  else if c = 'n' then some '\n' else if c = 'r' then some '\r' else if c = 't' then some '\t' else none

/-- `py_scanstring`: a string after its opening quote. -/
def scan : ℕ → List Char → Option (List Char × List Char)
  | 0, _ => none
  | _ + 1, [] => none
  | n + 1, c :: t =>
    if c = '"' then some ([], t)
    else if c = '\\' then
      match t with
      | [] => none
      | e :: u =>
        if e = 'u' then
          match unicode u with
          | none => none
          | some (x, v) => (scan n v).map fun r => (x :: r.1, r.2)
        else
          match plainEsc e with
          | none => none
          | some x => (scan n u).map fun r => (x :: r.1, r.2)
    else if c.toNat < 32 then none
    else (scan n t).map fun r => (c :: r.1, r.2)

/-- A string after its opening quote. -/
def readStr (s : List Char) : Option (List Char × List Char) := scan (s.length + 1) s

mutual
/-- `py_make_scanner`: one value. -/
def parse {N : Type} (M : Nums N) : ℕ → List Char → Option (Json N × List Char)
  | 0, _ => none
  | _ + 1, [] => none
  | n + 1, c :: t =>
    if c = '"' then (readStr t).map fun r => (.str r.1, r.2)
    else if c = '[' then
      match skip t with
      | ']' :: u => some (.arr [], u)
      | u => (parseItems M n u).map fun r => (.arr r.1, r.2)
    else if c = '{' then
      match skip t with
      | '}' :: u => some (.obj [], u)
      | u => (parsePairs M n u).map fun r => (.obj r.1, r.2)
    else if (c :: t).take 4 = "null".toList then some (.null, t.drop 3)
    else if (c :: t).take 4 = "true".toList then some (.bool true, t.drop 3)
    else if (c :: t).take 5 = "false".toList then some (.bool false, t.drop 4)
    else (M.read ((c :: t).takeWhile numChar)).map fun x => (.num x, (c :: t).dropWhile numChar)
/-- The items of a list, after the opening bracket or a comma and white space. -/
def parseItems {N : Type} (M : Nums N) : ℕ → List Char → Option (List (Json N) × List Char)
  | 0, _ => none
  | n + 1, s =>
    match parse M n s with
    | none => none
    | some (x, t) =>
      match skip t with
      | ',' :: u => (parseItems M n (skip u)).map fun r => (x :: r.1, r.2)
      | ']' :: u => some ([x], u)
      | _ => none
/-- The pairs of an object. -/
def parsePairs {N : Type} (M : Nums N) : ℕ → List Char → Option (List (List Char × Json N) × List Char)
  | 0, _ => none
  | n + 1, s =>
    match s with
    | '"' :: s =>
      match readStr s with
      | none => none
      | some (k, t) =>
        match skip t with
        | ':' :: t =>
          match parse M n (skip t) with
          | none => none
          | some (x, t) =>
            match skip t with
            | ',' :: u => (parsePairs M n (skip u)).map fun r => ((k, x) :: r.1, r.2)
            | '}' :: u => some ([(k, x)], u)
            | _ => none
        | _ => none
    | _ => none
end

/-- `json.load`: a value, and only white space around it. -/
def load {N : Type} (M : Nums N) (s : List Char) : Option (Json N) :=
  match parse M (2 * s.length + 2) (skip s) with
  | none => none
  | some (x, t) => if skip t = [] then some x else none

end Verif.Json
