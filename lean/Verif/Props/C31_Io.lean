import Verif.Lemmas.IoText

/-!
# C31: input and data files round-trip

What is loaded is compared with what was saved by relations that do not mention texts: `SameVal` for inputs, equality of
shape and entries for data.
-/

namespace Verif.Props
open Verif.Io Verif.Json

/-! ## Inputs -/

mutual
/-- What `json.load` may return for a value: itself, nested lists for an array (with its shape and entries), real and
imaginary parts, or the name of a filter. -/
inductive SameVal {N : Type} : PyVal N → Json N → Prop where
  | none : SameVal .none .null
  | bool (b : Bool) : SameVal (.bool b) (.bool b)
  | num (x : N) : SameVal (.num x) (.num x)
  | str (s : List Char) : SameVal (.str s) (.str s)
  | list {l : List (PyVal N)} {m : List (Json N)} : SameList l m → SameVal (.list l) (.arr m)
  | dict {l : List (List Char × PyVal N)} {m : List (List Char × Json N)} : SameDict l m → SameVal (.dict l) (.obj m)
  | complex (x y : N) : SameVal (.complex x y) (.arr [.num x, .num y])
  | ndarray {s : List ℕ} {l : List N} {j : Json N} : npArray j = some (s, l) → SameVal (.ndarray s l) j
  | ndcomplex {s : List ℕ} {x y : List N} {i j : Json N} : npArray i = some (s, x) → npArray j = some (s, y) →
      SameVal (.ndcomplex s x y) (.arr [i, j])
  | filter (n : List Char) : SameVal (.filter n) (.str n)
/-- Item by item. -/
inductive SameList {N : Type} : List (PyVal N) → List (Json N) → Prop where
  | nil : SameList [] []
  | cons {v : PyVal N} {j : Json N} {l : List (PyVal N)} {m : List (Json N)} :
      SameVal v j → SameList l m → SameList (v :: l) (j :: m)
/-- The same keys in the same order, value by value. -/
inductive SameDict {N : Type} : List (List Char × PyVal N) → List (List Char × Json N) → Prop where
  | nil : SameDict [] []
  | cons (k : List Char) {v : PyVal N} {j : Json N} {l : List (List Char × PyVal N)} {m : List (List Char × Json N)} :
      SameVal v j → SameDict l m → SameDict ((k, v) :: l) ((k, j) :: m)
end

/-- A shape of an array with that many entries, in which at most the last dimension is empty. -/
def GoodShape {N : Type} (s : List ℕ) (l : List N) : Prop := l.length = s.prod ∧ ∀ n ∈ s.dropLast, 0 < n

mutual
/-- Values that can be saved: nothing foreign, arrays not empty (but for the last dimension). -/
def Savable {N : Type} : PyVal N → Prop
  | .list l => SavableList l
  | .dict l => SavableDict l
  | .ndarray s l => GoodShape s l
  | .ndcomplex s x y => GoodShape s x ∧ GoodShape s y
  | .other => False
  | _ => True
/-- All items. -/
def SavableList {N : Type} : List (PyVal N) → Prop
  | [] => True
  | v :: l => Savable v ∧ SavableList l
/-- All values. -/
def SavableDict {N : Type} : List (List Char × PyVal N) → Prop
  | [] => True
  | (_, v) :: l => Savable v ∧ SavableDict l
end

mutual
theorem encode_same {N : Type} (v : PyVal N) (h : Savable v) : ∃ j, encode v = some j ∧ SameVal v j := by
  cases v with
  | none => exact ⟨_, by rw [encode], .none⟩
  | bool b => exact ⟨_, by rw [encode], .bool b⟩
  | num x => exact ⟨_, by rw [encode], .num x⟩
  | str s => exact ⟨_, by rw [encode], .str s⟩
  | list l =>
    rw [Savable] at h
    obtain ⟨m, hm, hs⟩ := encodeList_same l h
    exact ⟨.arr m, by rw [encode, hm]; rfl, .list hs⟩
  | dict l =>
    rw [Savable] at h
    obtain ⟨m, hm, hs⟩ := encodeDict_same l h
    exact ⟨.obj m, by rw [encode, hm]; rfl, .dict hs⟩
  | complex x y => exact ⟨_, by rw [encode], .complex x y⟩
  | ndarray s l =>
    rw [Savable] at h
    exact ⟨_, by rw [encode], .ndarray (npArray_tolist s l h.1 h.2)⟩
  | ndcomplex s x y =>
    rw [Savable] at h
    exact ⟨_, by rw [encode], .ndcomplex (npArray_tolist s x h.1.1 h.1.2) (npArray_tolist s y h.2.1 h.2.2)⟩
  | filter n => exact ⟨_, by rw [encode], .filter n⟩
  | other => rw [Savable] at h; exact h.elim
theorem encodeList_same {N : Type} (l : List (PyVal N)) (h : SavableList l) :
    ∃ m, encodeList l = some m ∧ SameList l m := by
  match l with
  | [] => exact ⟨[], by rw [encodeList], .nil⟩
  | v :: l =>
    rw [SavableList] at h
    obtain ⟨j, hj, hs⟩ := encode_same v h.1
    obtain ⟨m, hm, hl⟩ := encodeList_same l h.2
    exact ⟨j :: m, by rw [encodeList, hj, hm], .cons hs hl⟩
theorem encodeDict_same {N : Type} (l : List (List Char × PyVal N)) (h : SavableDict l) :
    ∃ m, encodeDict l = some m ∧ SameDict l m := by
  match l with
  | [] => exact ⟨[], by rw [encodeDict], .nil⟩
  | (k, v) :: l =>
    rw [SavableDict] at h
    obtain ⟨j, hj, hs⟩ := encode_same v h.1
    obtain ⟨m, hm, hl⟩ := encodeDict_same l h.2
    exact ⟨(k, j) :: m, by rw [encodeDict, hj, hm], .cons k hs hl⟩
end

mutual
/-- Something foreign is in it, at any depth. -/
def Foreign {N : Type} : PyVal N → Prop
  | .list l => ForeignList l
  | .dict l => ForeignDict l
  | .other => True
  | _ => False
/-- Some item. -/
def ForeignList {N : Type} : List (PyVal N) → Prop
  | [] => False
  | v :: l => Foreign v ∨ ForeignList l
/-- Some value. -/
def ForeignDict {N : Type} : List (List Char × PyVal N) → Prop
  | [] => False
  | (_, v) :: l => Foreign v ∨ ForeignDict l
end

mutual
theorem encode_foreign {N : Type} (v : PyVal N) (h : Foreign v) : encode v = none := by
  cases v with
  | list l => rw [Foreign] at h; rw [encode, encodeList_foreign l h]; rfl
  | dict l => rw [Foreign] at h; rw [encode, encodeDict_foreign l h]; rfl
  | other => rw [encode]
  | _ => simp [Foreign] at h
theorem encodeList_foreign {N : Type} (l : List (PyVal N)) (h : ForeignList l) : encodeList l = none := by
  match l with
  | [] => simp [ForeignList] at h
  | v :: l =>
    rw [ForeignList] at h
    rw [encodeList]
    rcases h with h | h
    · rw [encode_foreign v h]
    · rw [encodeList_foreign l h]; cases encode v <;> rfl
theorem encodeDict_foreign {N : Type} (l : List (List Char × PyVal N)) (h : ForeignDict l) :
    encodeDict l = none := by
  match l with
  | [] => simp [ForeignDict] at h
  | (k, v) :: l =>
    rw [ForeignDict] at h
    rw [encodeDict]
    rcases h with h | h
    · rw [encode_foreign v h]
    · rw [encodeDict_foreign l h]; cases encode v <;> rfl
end

/-- An input that is not empty is loaded as it was saved, and no other file is touched. -/
theorem C31_input_partial {N : Type} (E : Env N) (fname : List Char) (data : List (List Char × PyVal N)) (fs : Fs)
    (hf : ".json".toList <:+ E.abspath fname) (h0 : data ≠ []) (hs : SavableDict data) :
    ∃ fs' m, saveInput E fname data fs = (.ok (), fs') ∧ loadInput E fname fs' = .ok (.obj m) ∧ SameDict data m ∧
      ∀ p, p ≠ E.abspath fname → fs' p = fs p := by
  have he : endsWith ".json" (E.abspath fname) = true := List.isSuffixOf_iff_suffix.2 hf
  obtain ⟨m, hm, hsame⟩ := encodeDict_same data hs
  obtain ⟨p, r, rfl⟩ : ∃ p r, m = p :: r := by
    cases hsame with
    | nil => exact absurd rfl h0
    | cons k h1 h2 => exact ⟨_, _, rfl⟩
  refine ⟨Function.update fs (E.abspath fname) (some (write E.json inputStyle 0 (.obj (p :: r)))), p :: r, ?_, ?_,
    hsame, fun q hq => Function.update_of_ne hq _ _⟩
  · unfold saveInput
    simp only [he, if_true]
    rw [inputLoop_eq, hm]
    simp only [Option.map_some]
    rw [List.singleton_append, input_text]
  · unfold loadInput
    simp only [he, if_true, Function.update_self]
    rw [jsonLoad, load_write E.json inputStyle_ok]

/-- Foreign extensions and foreign values are rejected, and nothing is written. -/
theorem C31_input_rejected {N : Type} (E : Env N) (fname : List Char) (data : List (List Char × PyVal N)) (fs : Fs) :
    (¬ ".json".toList <:+ E.abspath fname → saveInput E fname data fs = (.error .value, fs) ∧
      loadInput E fname fs = .error .value) ∧
    (".json".toList <:+ E.abspath fname → ForeignDict data → saveInput E fname data fs = (.error .type, fs)) := by
  constructor
  · intro hf
    have he : endsWith ".json" (E.abspath fname) = false := by
      rw [← Bool.not_eq_true]; exact fun h => hf (List.isSuffixOf_iff_suffix.1 h)
    unfold saveInput loadInput
    simp [he]
  · intro hf hn
    have he : endsWith ".json" (E.abspath fname) = true := List.isSuffixOf_iff_suffix.2 hf
    unfold saveInput
    simp only [he, if_true]
    rw [inputLoop_eq, encodeDict_foreign data hn]
    rfl

/-- An empty input is saved without complaint but cannot be loaded: the opening brace is cut off. -/
theorem C31_input_violated {N : Type} (E : Env N) (fname : List Char) (fs : Fs)
    (hf : ".json".toList <:+ E.abspath fname) :
    ∃ fs', saveInput E fname ([] : List (List Char × PyVal N)) fs = (.ok (), fs') ∧
      fs' (E.abspath fname) = some "\n}".toList ∧
      (E.json.read [] = none → loadInput E fname fs' = .error .value) := by
  have he : endsWith ".json" (E.abspath fname) = true := List.isSuffixOf_iff_suffix.2 hf
  refine ⟨Function.update fs (E.abspath fname) (some "\n}".toList), ?_, Function.update_self .., fun hr => ?_⟩
  · unfold saveInput
    simp only [he, if_true]
    rfl
  · unfold loadInput
    simp only [he, if_true, Function.update_self]
    unfold jsonLoad load
    have hsk : skip "\n}".toList = ['}'] := by decide
    rw [hsk, parse]
    rw [if_neg (by decide), if_neg (by decide), if_neg (by decide), if_neg (by decide), if_neg (by decide),
      if_neg (by decide)]
    rw [show ['}'].takeWhile numChar = [] by decide, hr]
    rfl

/-! ## Data -/

/-- As many entries as the shape says; complex ones if the name of the type says so. -/
def FitsData {N : Type} (a b c : ℕ) (dtype : List Char) : Values N → Prop
  | .real l => l.length = a * b * c ∧ ¬ "complex".toList <:+: dtype
  | .cplx re im => re.length = a * b * c ∧ im.length = a * b * c ∧ "complex".toList <:+: dtype

theorem metaObj_lookup {N : Type} (E : Env N) (a b c : ℕ) (dtype info : List Char) (d : Json N) :
    getItem "data" (.obj (((metaInfo E a b c dtype info).map fun p => (p.1, .str p.2)) ++ [("data".toList, d)])) =
      .ok d ∧
    getItem "dtype" (.obj (((metaInfo E a b c dtype info).map fun p => (p.1, .str p.2)) ++ [("data".toList, d)])) =
      .ok (.str dtype) := by
  unfold metaInfo getItem
  simp only [List.map_cons, List.map_nil, List.cons_append, List.nil_append, List.lookup]
  rw [show ("data".toList == "date".toList) = false by decide, show ("data".toList == "version".toList) = false by decide,
    show ("data".toList == "shape".toList) = false by decide, show ("data".toList == "dtype".toList) = false by decide,
    show ("data".toList == "info".toList) = false by decide, show ("data".toList == "data".toList) = true by decide,
    show ("dtype".toList == "date".toList) = false by decide, show ("dtype".toList == "version".toList) = false by decide,
    show ("dtype".toList == "shape".toList) = false by decide, show ("dtype".toList == "dtype".toList) = true by decide]
  exact ⟨rfl, rfl⟩

/-- The text of a JSON file. -/
def jsonText {N : Type} (E : Env N) (a b c : ℕ) (dtype info : List Char) (v : Values N) : List Char :=
  write E.json (indented 2) 0 (.obj (((metaInfo E a b c dtype info).map fun p => (p.1, .str p.2)) ++
    [("data".toList, encodeData [a, b, c] v)]))

/-- The text of a text file. -/
def txtText {N : Type} (E : Env N) (a b c : ℕ) (dtype info : List Char) (v : Values N) : List Char :=
  header E a b c dtype info ++ "# data\n".toList ++ rows E.txt (a * b) c v

/-- JSON: data are loaded as they were saved, for every information, as long as at most the last dimension is empty. -/
theorem C31_json_partial {N : Type} (E : Env N) (fname : List Char) (a b c : ℕ) (dtype info : List Char)
    (v : Values N) (fs : Fs) (hf : ".json".toList <:+ E.abspath fname) (ha : 0 < a) (hb : 0 < b)
    (hv : FitsData a b c dtype v) :
    ∃ fs', saveData E fname ⟨[a, b, c], dtype, v⟩ info fs = (.ok (), fs') ∧
      loadData E fname fs' = .ok ([a, b, c], v) ∧ ∀ p, p ≠ E.abspath fname → fs' p = fs p := by
  have he : endsWith ".json" (E.abspath fname) = true := List.isSuffixOf_iff_suffix.2 hf
  have hn : endsWith ".txt" (E.abspath fname) = false := by
    rw [← Bool.not_eq_true]
    intro h
    have h' : ".txt".toList <:+ E.abspath fname := List.isSuffixOf_iff_suffix.1 h
    have := List.suffix_of_suffix_length_le h' hf (by decide)
    exact absurd this (by decide)
  refine ⟨Function.update fs (E.abspath fname) (some (jsonText E a b c dtype info v)), ?_, ?_,
    fun q hq => Function.update_of_ne hq _ _⟩
  · unfold saveData
    simp only [hn, he, if_true, Bool.false_eq_true, if_false]
    rfl
  · unfold loadData
    simp only [hn, he, if_true, Bool.false_eq_true, if_false, Function.update_self]
    unfold loadJson jsonLoad jsonText
    rw [load_write E.json (indented_ok 2)]
    obtain ⟨h1, h2⟩ := metaObj_lookup E a b c dtype info (encodeData [a, b, c] v)
    have hp : ([a, b, c] : List ℕ).prod = a * b * c := by simp [Nat.mul_assoc]
    have hd : ∀ n ∈ ([a, b, c] : List ℕ).dropLast, 0 < n := by simp [ha, hb]
    simp only [bind, Except.bind]
    rw [h1]
    simp only
    cases v with
    | real l =>
      obtain ⟨hl, hc⟩ := hv
      have hx : npArray (encodeData [a, b, c] (.real l)) = some ([a, b, c], l) := by
        rw [encodeData, npArray_tolist _ _ (by rw [hp, hl]) hd]
      rw [hx]
      simp only
      rw [h2]
      simp only
      rw [if_neg (by rw [isComplex, decide_eq_true_eq]; exact hc)]
    | cplx re im =>
      obtain ⟨hl, hm, hc⟩ := hv
      have hx : npArray (encodeData [a, b, c] (.cplx re im)) = some ([2, a, b, c], re ++ im) := by
        rw [encodeData, npArray, npArrays, npArrays, npArrays, npArray_tolist _ _ (by rw [hp, hl]) hd,
          npArray_tolist _ _ (by rw [hp, hm]) hd]
        simp
      rw [hx]
      simp only
      rw [h2]
      simp only
      rw [if_pos (show isComplex dtype = true from decide_eq_true hc), if_pos (le_refl 2), hp, ← hl, List.take_left, List.drop_left,
        hl, ← hm, List.take_length]

/-- Text: data are loaded as they were saved, if the information is on one line and there are columns. -/
theorem C31_txt_partial {N : Type} (E : Env N) (fname : List Char) (a b c : ℕ) (dtype info : List Char)
    (v : Values N) (fs : Fs) (hf : ".txt".toList <:+ E.abspath fname) (hc : 0 < c)
    (hd : Plain E.date) (hver : Plain E.version) (ht : TypeName dtype) (hi : OneLine info)
    (hv : FitsData a b c dtype v) :
    ∃ fs', saveData E fname ⟨[a, b, c], dtype, v⟩ info fs = (.ok (), fs') ∧
      loadData E fname fs' = .ok ([a, b, c], v) ∧ ∀ p, p ≠ E.abspath fname → fs' p = fs p := by
  have he : endsWith ".txt" (E.abspath fname) = true := List.isSuffixOf_iff_suffix.2 hf
  have hlen : (tokens E.txt v).length = a * b * c := by
    cases v with
    | real l => simpa [tokens] using hv.1
    | cplx re im => simp [tokens, hv.1, hv.2.1]
  refine ⟨Function.update fs (E.abspath fname) (some (txtText E a b c dtype info v)), ?_, ?_,
    fun q hq => Function.update_of_ne hq _ _⟩
  · unfold saveData
    simp only [he, if_true, if_neg hc.ne']
    rfl
  · unfold loadData
    simp only [he, if_true, Function.update_self]
    have hone := bodies_oneLine E (a := a) (b := b) (c := c) (dtype := dtype) (info := info) v hd.1 hver.1 ht.plain.1 hi
    rw [txtText, file_eq]
    unfold loadTxt
    rw [universal_eq (text_noCr hone)]
    obtain ⟨m, hm, hsh, hty⟩ := readMeta_file E (a := a) (b := b) (c := c) (info := info)
      (rowBodies E.txt (a * b) c v) hd hver ht
    simp only [bind, Except.bind]
    rw [lines_flatten _ fun w hw => (hone w hw).1, hm]
    simp only
    rw [hsh]
    simp only
    rw [read_shape]
    simp only
    rw [read_dims]
    simp only
    rw [hty]
    simp only
    rw [loadTokens_file E v hc hlen hone]
    simp only
    have hp : ([a, b, c] : List ℕ).prod = a * b * c := by simp [Nat.mul_assoc]
    cases v with
    | real l =>
      obtain ⟨hl, hcx⟩ := hv
      rw [loadValues, if_neg (by rw [isComplex, decide_eq_true_eq]; exact hcx), tokens, allSome_map _ _ _ E.txt.read_write]
      simp only
      rw [reshape, if_pos (by rw [hp]; exact hl)]
    | cplx re im =>
      obtain ⟨hl, hm', hcx⟩ := hv
      rw [loadValues, if_pos (show isComplex dtype = true from decide_eq_true hcx), tokens,
        allSome_map _ _ _ (fun p => E.txt.readC_write p.1 p.2)]
      simp only
      have h1 : (re.zip im).map Prod.fst = re := List.map_fst_zip (by omega)
      have h2 : (re.zip im).map Prod.snd = im := List.map_snd_zip (by omega)
      rw [h1, h2, reshape, if_pos (by rw [hp]; exact hl)]

/-- Other dimensions and foreign extensions are rejected, and nothing is written. -/
theorem C31_data_rejected {N : Type} (E : Env N) (fname : List Char) (data : Io.Array N) (info : List Char) (fs : Fs)
    (h : data.shape.length ≠ 3 ∨ ¬ ".txt".toList <:+ E.abspath fname ∧ ¬ ".json".toList <:+ E.abspath fname) :
    saveData E fname data info fs = (.error .value, fs) := by
  unfold saveData
  split
  · rename_i a b c hs
    rcases h with h | ⟨h1, h2⟩
    · simp [hs] at h
    · have e1 : endsWith ".txt" (E.abspath fname) = false := by
        rw [← Bool.not_eq_true]; exact fun h => h1 (List.isSuffixOf_iff_suffix.1 h)
      have e2 : endsWith ".json" (E.abspath fname) = false := by
        rw [← Bool.not_eq_true]; exact fun h => h2 (List.isSuffixOf_iff_suffix.1 h)
      simp [e1, e2]
  · rfl

/-- Files with foreign extensions and files that do not exist are not loaded. -/
theorem C31_load_rejected {N : Type} (E : Env N) (fname : List Char) (fs : Fs) :
    (¬ ".txt".toList <:+ E.abspath fname → ¬ ".json".toList <:+ E.abspath fname →
      loadData E fname fs = .error .value) ∧
    (fs (E.abspath fname) = none → ∀ r, loadData E fname fs ≠ .ok r) := by
  constructor
  · intro h1 h2
    have e1 : endsWith ".txt" (E.abspath fname) = false := by
      rw [← Bool.not_eq_true]; exact fun h => h1 (List.isSuffixOf_iff_suffix.1 h)
    have e2 : endsWith ".json" (E.abspath fname) = false := by
      rw [← Bool.not_eq_true]; exact fun h => h2 (List.isSuffixOf_iff_suffix.1 h)
    unfold loadData
    simp [e1, e2]
  · intro h r
    unfold loadData
    simp only [h]
    split_ifs <;> simp

/-- JSON: an array of shape `(a, 0, c)` comes back as one of shape `(a, 0)`. -/
theorem C31_json_violated {N : Type} (E : Env N) (fname : List Char) (a c : ℕ) (dtype info : List Char) (fs : Fs)
    (hf : ".json".toList <:+ E.abspath fname) (ha : 0 < a) (hv : ¬ "complex".toList <:+: dtype) :
    ∃ fs', saveData E fname ⟨[a, 0, c], dtype, (.real [] : Values N)⟩ info fs = (.ok (), fs') ∧
      loadData E fname fs' = .ok ([a, 0], .real ([] : List N)) := by
  have he : endsWith ".json" (E.abspath fname) = true := List.isSuffixOf_iff_suffix.2 hf
  have hn : endsWith ".txt" (E.abspath fname) = false := by
    rw [← Bool.not_eq_true]
    intro h
    have h' : ".txt".toList <:+ E.abspath fname := List.isSuffixOf_iff_suffix.1 h
    have := List.suffix_of_suffix_length_le h' hf (by decide)
    exact absurd this (by decide)
  refine ⟨Function.update fs (E.abspath fname) (some (jsonText E a 0 c dtype info (.real []))), ?_, ?_⟩
  · unfold saveData
    simp only [hn, he, if_true, Bool.false_eq_true, if_false]
    rfl
  · unfold loadData
    simp only [hn, he, if_true, Bool.false_eq_true, if_false, Function.update_self]
    unfold loadJson jsonLoad jsonText
    rw [load_write E.json (indented_ok 2)]
    obtain ⟨h1, h2⟩ := metaObj_lookup E a 0 c dtype info (encodeData [a, 0, c] (.real ([] : List N)))
    simp only [bind, Except.bind]
    rw [h1]
    simp only
    have ht : tolist [a, 0, c] ([] : List N) = tolist [a, 0] [] := by
      simp [tolist, chunks]
    have hx : npArray (encodeData [a, 0, c] (.real ([] : List N))) = some ([a, 0], []) := by
      rw [encodeData, ht, npArray_tolist [a, 0] [] (by simp) (by simp [ha])]
    rw [hx]
    simp only
    rw [h2]
    simp only
    rw [if_neg (by rw [isComplex, decide_eq_true_eq]; exact hv)]

/-- Text: without columns `save_data` fails after the header has been written. -/
theorem C31_txt_violated {N : Type} (E : Env N) (fname : List Char) (a b : ℕ) (dtype info : List Char)
    (v : Values N) (fs : Fs) (hf : ".txt".toList <:+ E.abspath fname) :
    ∃ fs' text, saveData E fname ⟨[a, b, 0], dtype, v⟩ info fs = (.error .value, fs') ∧
      fs' (E.abspath fname) = some ("# date:".toList ++ text) := by
  have he : endsWith ".txt" (E.abspath fname) = true := List.isSuffixOf_iff_suffix.2 hf
  have hh : ∃ text, header E a b 0 dtype info = "# date:".toList ++ text := by
    rw [header, metaInfo, List.map_cons, List.flatten_cons, metaLine, List.append_assoc, List.append_assoc]
    exact ⟨_, rfl⟩
  obtain ⟨text, ht⟩ := hh
  refine ⟨Function.update fs (E.abspath fname) (some (header E a b 0 dtype info)), text, ?_, ?_⟩
  · unfold saveData
    simp only [he, if_true]
  · rw [Function.update_self, ht]

/-- Text: data with information on two lines are saved without complaint but cannot be loaded. -/
theorem C31_info_violated {N : Type} (E : Env N) (fname : List Char) (a b c : ℕ) (dtype : List Char)
    (v : Values N) (fs : Fs) (hf : ".txt".toList <:+ E.abspath fname) (hc : 0 < c)
    (hd : Plain E.date) (hver : Plain E.version) (ht : TypeName dtype) :
    ∃ fs', saveData E fname ⟨[a, b, c], dtype, v⟩ "x\ny".toList fs = (.ok (), fs') ∧
      loadData E fname fs' = .error .value := by
  have he : endsWith ".txt" (E.abspath fname) = true := List.isSuffixOf_iff_suffix.2 hf
  refine ⟨Function.update fs (E.abspath fname) (some (txtText E a b c dtype "x\ny".toList v)), ?_, ?_⟩
  · unfold saveData
    simp only [he, if_true, if_neg hc.ne']
    rfl
  · unfold loadData
    simp only [he, if_true, Function.update_self]
    have hone := bodies_oneLine E (a := a) (b := b) (c := c) (dtype := dtype) (info := "x".toList) v hd.1 hver.1
      ht.plain.1 (by unfold OneLine; decide)
    have hlist : header E a b c dtype "x\ny".toList ++ "# data\n".toList ++ rows E.txt (a * b) c v =
        ((headBodies E a b c dtype "x".toList ++ "y".toList :: "# data".toList :: rowBodies E.txt (a * b) c v).map
          fun w => w ++ ['\n']).flatten := by
      have hi : metaLine "info".toList "x\ny".toList = metaBody "info".toList "x".toList ++ ['\n'] ++ "y\n".toList := by
        decide
      have hy : "y\n".toList = "y".toList ++ ['\n'] := by decide
      have hz : "# data\n".toList = "# data".toList ++ ['\n'] := by decide
      unfold header headBodies metaInfo rows rowBodies
      simp only [List.map_cons, List.map_nil, List.flatten_cons, List.flatten_nil, List.map_append,
        List.flatten_append, hi, hy, hz, List.append_nil, List.append_assoc, List.map_map, Function.comp_def]
      simp only [metaLine_eq, List.append_assoc]
    have hone' : ∀ w ∈ headBodies E a b c dtype "x".toList ++ "y".toList :: "# data".toList ::
        rowBodies E.txt (a * b) c v, OneLine w := by
      intro w hw
      simp only [List.mem_append, List.mem_cons] at hw
      rcases hw with hw | rfl | hw
      · exact hone w (List.mem_append_left _ hw)
      · unfold OneLine; decide
      · exact hone w (by simp only [List.mem_append, List.mem_cons]; exact Or.inr hw)
    rw [txtText, hlist]
    unfold loadTxt
    rw [universal_eq (text_noCr hone')]
    simp only [bind, Except.bind]
    rw [lines_flatten _ fun w hw => (hone' w hw).1]
    unfold headBodies metaInfo
    simp only [List.map_cons, List.map_nil, List.cons_append, List.nil_append]
    rw [readMeta_meta (by decide) (metaBody_plain (by decide) hd.2),
      readMeta_meta (by decide) (metaBody_plain (not_infix 'd' (by decide) (by decide)) hver.2),
      readMeta_meta (by decide) (metaBody_plain (not_infix 'd' (by decide) (by decide)) (showShape_plain a b c).2),
      readMeta_meta (by decide) (metaBody_plain (not_infix 'a' (by decide) (by decide)) ht.2),
      readMeta_meta (by decide) (metaBody_plain (not_infix 'd' (by decide) (by decide)) (by decide)),
      readMeta, if_neg (by decide)]
    rfl

/-! ## A concrete case -/

/-- Whole numbers, written with a sign. -/
def demoNums : TxtNums ℕ where
  write n := '+' :: digits n
  read s := match s with
    | '+' :: d => readNat d
    | _ => none
  chars x c hc := by
    rcases List.mem_cons.1 hc with rfl | hc
    · decide
    · have h := isDigit_range (digits_isDigit hc)
      have : ∀ n, 48 ≤ n → n ≤ 57 → numChar (Char.ofNat n) = true := by
        intro n h1 h2; interval_cases n <;> decide
      rw [← Char.ofNat_toNat c]
      exact this _ h.1 h.2
  nonempty x := by simp
  read_write := readNat_digits
  readC s := match s with
    | '+' :: t =>
      match readNat (t.takeWhile Char.isDigit), (t.dropWhile Char.isDigit) with
      | some x, '+' :: u => (readNat u.dropLast).map fun y => (x, y)
      | _, _ => none
    | _ => none
  readC_write x y := by
    have h : ∀ w : List Char, (∀ c ∈ w, c.isDigit = true) → ∀ t, (w ++ '+' :: t).takeWhile Char.isDigit = w ∧
        (w ++ '+' :: t).dropWhile Char.isDigit = '+' :: t := by
      intro w
      induction w with
      | nil => intro _ t; exact ⟨rfl, rfl⟩
      | cons c w ih =>
        intro hw t
        have := ih (fun d hd => hw d (by simp [hd])) t
        simp only [List.cons_append, List.takeWhile_cons, List.dropWhile_cons, hw c (by simp), if_true]
        exact ⟨by rw [this.1], this.2⟩
    have hx := h (digits x) (fun c hc => digits_isDigit hc) (digits y ++ ['j'])
    simp only [List.cons_append, List.append_assoc]
    rw [hx.1, hx.2, readNat_digits]
    simp only
    rw [List.dropLast_concat, readNat_digits]
    rfl

/-- Surroundings. -/
def demoEnv : Env ℕ := ⟨id, demoNums.toNums, demoNums, "Mon".toList, "empymod v2".toList⟩

/-- `{"a": [1, None], "é": True}` survives. -/
example (fs : Fs) : ∃ fs' m, saveInput demoEnv "/f.json".toList
      [("a".toList, .list [.num 1, .none]), ("é".toList, .bool true)] fs = (.ok (), fs') ∧
    loadInput demoEnv "/f.json".toList fs' = .ok (.obj m) ∧
    SameDict [("a".toList, .list [.num 1, .none]), ("é".toList, .bool true)] m := by
  obtain ⟨fs', m, h1, h2, h3, -⟩ := C31_input_partial demoEnv "/f.json".toList
    [("a".toList, .list [.num 1, .none]), ("é".toList, .bool true)] fs (by decide) (by simp)
    (by simp [SavableDict, Savable, SavableList])
  exact ⟨fs', m, h1, h2, h3⟩

/-- Two complex numbers survive in both formats, with information that mentions data. -/
example (fs : Fs) (fname : List Char) (hf : fname = "/f.json".toList ∨ fname = "/f.txt".toList) :
    ∃ fs', saveData demoEnv fname ⟨[1, 1, 2], "complex128".toList, .cplx [1, 2] [30, 4]⟩ "my data".toList fs =
      (.ok (), fs') ∧ loadData demoEnv fname fs' = .ok ([1, 1, 2], .cplx [1, 2] [30, 4]) := by
  have hfit : FitsData 1 1 2 "complex128".toList (.cplx [1, 2] [30, 4] : Values ℕ) :=
    ⟨rfl, rfl, ⟨[], "128".toList, rfl⟩⟩
  rcases hf with rfl | rfl
  · obtain ⟨fs', h1, h2, -⟩ := C31_json_partial demoEnv "/f.json".toList 1 1 2 "complex128".toList "my data".toList
      (.cplx [1, 2] [30, 4]) fs (by decide) (by decide) (by decide) hfit
    exact ⟨fs', h1, h2⟩
  · obtain ⟨fs', h1, h2, -⟩ := C31_txt_partial demoEnv "/f.txt".toList 1 1 2 "complex128".toList "my data".toList
      (.cplx [1, 2] [30, 4]) fs (by decide) (by decide) (by unfold Plain OneLine; decide)
      ⟨by unfold OneLine; decide, not_infix 't' (by decide) (by decide)⟩
      ⟨by decide, not_infix 'd' (by decide) (by decide)⟩ (by unfold OneLine; decide) hfit
    exact ⟨fs', h1, h2⟩

/-- The text of an input. -/
example : inputLoop demoEnv [("a".toList, .num 1), ("b".toList, .str "x\"".toList)] ['{'] =
    some "{\n  \"a\": +1,\n  \"b\": \"x\\\"\",".toList := by decide

end Verif.Props
