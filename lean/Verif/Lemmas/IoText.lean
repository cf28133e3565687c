import Verif.Lemmas.Io

/-!
# The text format of `save_data`
-/

namespace Verif.Io
open Verif.Json

/-- Text on one line. -/
def OneLine (s : List Char) : Prop := '\n' ∉ s ∧ '\r' ∉ s

/-- Text on one line that does not contain the word that ends the header. -/
def Plain (s : List Char) : Prop := OneLine s ∧ ¬ "data".toList <:+: s

/-- `float64`, `complex128`, …: no blanks, and not `data`. -/
def TypeName (s : List Char) : Prop := (∀ c ∈ s, blank c = false) ∧ ¬ "data".toList <:+: s

theorem TypeName.plain {s : List Char} (h : TypeName s) : Plain s :=
  ⟨⟨fun hc => absurd (h.1 _ hc) (by decide), fun hc => absurd (h.1 _ hc) (by decide)⟩, h.2⟩

/-- A line of the header, without its end. -/
def metaBody (k v : List Char) : List Char := "# ".toList ++ k ++ [':'] ++ (if v = [] then [] else ' ' :: v)

theorem metaLine_eq (k v : List Char) : metaLine k v = metaBody k v ++ ['\n'] := rfl

theorem metaBody_mem {k v : List Char} {c : Char} (h : c ∈ metaBody k v) :
    c = '#' ∨ c = ' ' ∨ c = ':' ∨ c ∈ k ∨ c ∈ v := by
  unfold metaBody at h
  split_ifs at h <;> simp at h <;> tauto

theorem metaBody_head (k v : List Char) : ∃ t, metaBody k v = '#' :: t := ⟨_, rfl⟩

theorem not_infix {α : Type} {w s : List α} (c : α) (h1 : c ∈ w) (h2 : c ∉ s) : ¬ w <:+: s :=
  fun h => h2 (h.subset h1)

theorem metaBody_plain {k v : List Char} (hk : ¬ "data".toList <:+: "# ".toList ++ k ++ [':'])
    (hv : ¬ "data".toList <:+: v) : hasData (metaBody k v) = false := by
  unfold hasData metaBody
  rw [decide_eq_false_iff_not]
  split_ifs with h
  · rwa [List.append_nil]
  · intro hi
    rcases infix_split (by decide) hi with h | h
    · exact hk h
    · exact hv h

theorem splitColon_meta {k : List Char} (hk : ':' ∉ k) (v : List Char) :
    splitColon (metaBody k v) = some ("# ".toList ++ k, if v = [] then [] else ' ' :: v) := by
  unfold splitColon metaBody
  rw [if_pos (by simp)]
  have h : ∀ w : List Char, ':' ∉ w → ∀ t, (w ++ ':' :: t).takeWhile (· ≠ ':') = w ∧
      (w ++ ':' :: t).dropWhile (· ≠ ':') = ':' :: t := by
    intro w
    induction w with
    | nil => intro _ t; simp
    | cons c w ih =>
      intro hw t
      have hc : c ≠ ':' := fun hc => hw (by simp [hc])
      have := ih (fun h => hw (by simp [h])) t
      simp only [List.cons_append, List.takeWhile_cons, List.dropWhile_cons, hc, ne_eq, not_false_eq_true,
        decide_true, if_true]
      exact ⟨by rw [this.1], this.2⟩
  have hw : ':' ∉ "# ".toList ++ k := by simpa using hk
  rw [List.append_assoc ("# ".toList ++ k), List.singleton_append, (h _ hw _).1, (h _ hw _).2]
  rfl

/-- What is stored for a line. -/
def stored (v : List Char) : List Char := rstrip ((if v = [] then [] else ' ' :: v).dropWhile (· = ' '))

theorem readMeta_meta {k v : List Char} (hk : ':' ∉ k) (hd : hasData (metaBody k v) = false)
    (ls : List (List Char)) (m : List (List Char × List Char)) :
    readMeta (metaBody k v :: ls) m =
      readMeta ls ((("# ".toList ++ k).dropWhile (fun c => c = '#' ∨ c = ' '), stored v) :: m) := by
  rw [readMeta, if_neg (by simp [hd]), splitColon_meta hk]
  rfl

theorem readMeta_data {l : List Char} (h : hasData l = true) (ls : List (List Char))
    (m : List (List Char × List Char)) : readMeta (l :: ls) m = .ok m := by
  rw [readMeta, if_pos h]

theorem stored_eq {v : List Char} (h : ∀ hv : v ≠ [], v.head hv ≠ ' ' ∧ blank (v.getLast hv) = false) :
    stored v = v := by
  unfold stored
  split_ifs with hv
  · rw [hv]; rfl
  · rw [List.dropWhile_cons_of_pos (by decide)]
    obtain ⟨c, t, rfl⟩ := List.exists_cons_of_ne_nil hv
    rw [List.dropWhile_cons_of_neg (by simpa using (h hv).1), rstrip,
      List.rdropWhile_eq_self_iff.2 fun _ => by simpa using (h hv).2]

theorem stored_typeName {v : List Char} (h : TypeName v) : stored v = v :=
  stored_eq fun hv => ⟨fun hc => absurd (h.1 _ (List.head_mem hv)) (by rw [hc]; decide), h.1 _ (List.getLast_mem hv)⟩

theorem stored_shape (a b c : ℕ) : stored (showShape a b c) = showShape a b c := by
  refine stored_eq fun hv => ⟨?_, ?_⟩
  · simp [showShape]
  · have : (showShape a b c).getLast hv = ')' := by simp [showShape]
    rw [this]; decide

theorem showShape_mem {a b c : ℕ} {x : Char} (h : x ∈ showShape a b c) :
    x ∈ "(), ".toList ∨ x.isDigit = true := by
  simp only [showShape, List.mem_cons, List.mem_append] at h
  rcases h with ((((h | h) | h) | h) | h) | h
  all_goals first
    | exact Or.inr (digits_isDigit h)
    | (left; revert h; simp; tauto)
    | skip
  all_goals rcases h with h | h
  all_goals first
    | exact Or.inr (digits_isDigit h)
    | (left; revert h; simp; tauto)

theorem showShape_plain (a b c : ℕ) : Plain (showShape a b c) := by
  refine ⟨⟨fun h => ?_, fun h => ?_⟩, fun h => ?_⟩
  · exact absurd (showShape_mem h) (by decide)
  · exact absurd (showShape_mem h) (by decide)
  · exact absurd (showShape_mem (h.subset (by decide : 'd' ∈ "data".toList))) (by decide)

/-- The shape is read from its text. -/
theorem read_shape (a b c : ℕ) :
    betweenParens (showShape a b c) = some (digits a ++ ", ".toList ++ digits b ++ ", ".toList ++ digits c) := by
  unfold betweenParens showShape
  simp only [List.cons_append]
  rw [List.dropWhile_cons_of_neg (by decide)]
  simp only
  have h : ∀ w : List Char, (∀ x ∈ w, x ≠ '(' ∧ x ≠ ')') → ∀ f : Char → Bool,
      (f = fun c => !decide (c = '(' ∨ c = ')')) → (w ++ [')']).takeWhile f = w := by
    intro w hw f hf
    subst hf
    induction w with
    | nil => rfl
    | cons x w ih =>
      rw [List.cons_append, List.takeWhile_cons_of_pos (by simpa using hw x (by simp)),
        ih fun y hy => hw y (by simp [hy])]
  rw [h _ ?_ _ rfl]
  have hd : ∀ n, ∀ x ∈ digits n, x ≠ '(' ∧ x ≠ ')' := fun n x hx => by
    constructor <;> rintro rfl <;> exact absurd (digits_isDigit hx) (by decide)
  intro x hx
  simp only [List.mem_append] at hx
  rcases hx with (((hx | hx) | hx) | hx) | hx
  · exact hd _ x hx
  · revert x; decide
  · exact hd _ x hx
  · revert x; decide
  · exact hd _ x hx

theorem read_dims (a b c : ℕ) :
    allSome readNat (splitComma (digits a ++ ", ".toList ++ digits b ++ ", ".toList ++ digits c)) =
      some [a, b, c] := by
  have hc : ∀ n, ',' ∉ digits n := fun n h => ((digits_token n).2 _ h).2.1 rfl
  have hc' : ∀ n, ',' ∉ ' ' :: digits n := fun n h => by
    rcases List.mem_cons.1 h with h | h
    · exact absurd h (by decide)
    · exact hc n h
  have : digits a ++ ", ".toList ++ digits b ++ ", ".toList ++ digits c =
      digits a ++ ',' :: ((' ' :: digits b) ++ ',' :: (' ' :: digits c)) := by simp
  rw [this, splitComma_cons (hc a), splitComma_cons (hc' b), splitComma_single (hc' c)]
  simp only [allSome, readNat_space, readNat_digits]

/-! ## The whole file -/

/-- Bodies of the lines of the header. -/
def headBodies {N : Type} (E : Env N) (a b c : ℕ) (dtype info : List Char) : List (List Char) :=
  (metaInfo E a b c dtype info).map fun p => metaBody p.1 p.2

theorem header_eq {N : Type} (E : Env N) (a b c : ℕ) (dtype info : List Char) :
    header E a b c dtype info = ((headBodies E a b c dtype info).map fun w => w ++ ['\n']).flatten := by
  unfold header headBodies
  rw [List.map_map]
  rfl

/-- Bodies of the rows. -/
def rowBodies {N : Type} (T : TxtNums N) (n c : ℕ) (v : Values N) : List (List Char) :=
  (chunks n c (tokens T v)).map joinComma

theorem file_eq {N : Type} (E : Env N) (a b c : ℕ) (dtype info : List Char) (v : Values N) :
    header E a b c dtype info ++ "# data\n".toList ++ rows E.txt (a * b) c v =
      ((headBodies E a b c dtype info ++ "# data".toList :: rowBodies E.txt (a * b) c v).map
        fun w => w ++ ['\n']).flatten := by
  rw [header_eq, rows, rowBodies]
  simp [Function.comp_def]

theorem numChar_token {c : Char} (h : numChar c = true) : blank c = false ∧ c ≠ ',' ∧ c ≠ '#' := by
  unfold numChar at h
  rw [decide_eq_true_eq] at h
  revert c
  decide

theorem write_token {N : Type} (M : Nums N) (x : N) : Token (M.write x) :=
  ⟨M.nonempty x, fun c hc => numChar_token (M.chars x c hc)⟩

theorem tokens_token {N : Type} (T : TxtNums N) (v : Values N) : ∀ w ∈ tokens T v, Token w := by
  intro w hw
  cases v with
  | real l =>
    obtain ⟨x, -, rfl⟩ := List.mem_map.1 hw
    exact write_token _ x
  | cplx re im =>
    obtain ⟨p, -, rfl⟩ := List.mem_map.1 hw
    refine ⟨by simp, fun c hc => ?_⟩
    rcases List.mem_append.1 hc with hc | hc
    · rcases List.mem_append.1 hc with hc | hc
      · exact (write_token _ _).2 c hc
      · exact (write_token _ _).2 c hc
    · simp at hc; subst hc; decide

theorem row_chars {l : List (List Char)} (h : ∀ w ∈ l, Token w) {c : Char} (hc : c ∈ joinComma l) :
    c ≠ '\n' ∧ c ≠ '\r' ∧ c ≠ '#' := by
  rcases joinComma_mem hc with rfl | rfl | ⟨w, hw, hc⟩
  · decide
  · decide
  · have := (h w hw).2 c hc
    refine ⟨?_, ?_, this.2.2⟩ <;> rintro rfl <;> exact absurd this.1 (by decide)

/-- Nothing but line ends at the ends of lines. -/
theorem bodies_oneLine {N : Type} (E : Env N) {a b c : ℕ} {dtype info : List Char} (v : Values N)
    (hd : OneLine E.date) (hv : OneLine E.version) (ht : OneLine dtype) (hi : OneLine info) :
    ∀ w ∈ headBodies E a b c dtype info ++ "# data".toList :: rowBodies E.txt (a * b) c v, OneLine w := by
  have key : ∀ k v : List Char, OneLine k → OneLine v → OneLine (metaBody k v) := by
    intro k v hk hv
    constructor <;> intro h <;> rcases metaBody_mem h with h | h | h | h | h
    all_goals first
      | exact absurd h (by decide)
      | exact hk.1 h
      | exact hk.2 h
      | exact hv.1 h
      | exact hv.2 h
  intro w hw
  rcases List.mem_append.1 hw with hw | hw
  · simp only [headBodies, metaInfo, List.map_cons, List.map_nil, List.mem_cons, List.not_mem_nil, or_false] at hw
    rcases hw with rfl | rfl | rfl | rfl | rfl
    · exact key _ _ (by unfold OneLine; decide) hd
    · exact key _ _ (by unfold OneLine; decide) hv
    · exact key _ _ (by unfold OneLine; decide) (showShape_plain a b c).1
    · exact key _ _ (by unfold OneLine; decide) ht
    · exact key _ _ (by unfold OneLine; decide) hi
  · rcases List.mem_cons.1 hw with rfl | hw
    · unfold OneLine; decide
    · obtain ⟨r, hr, rfl⟩ := List.mem_map.1 hw
      have : ∀ w ∈ r, Token w := fun w hw => tokens_token E.txt v w (chunks_mem _ _ _ hr hw)
      exact ⟨fun h => (row_chars this h).1 rfl, fun h => (row_chars this h).2.1 rfl⟩

theorem text_noCr {l : List (List Char)} (h : ∀ w ∈ l, OneLine w) :
    '\r' ∉ (l.map fun w => w ++ ['\n']).flatten := by
  intro hc
  obtain ⟨x, hx, hc⟩ := List.mem_flatten.1 hc
  obtain ⟨w, hw, rfl⟩ := List.mem_map.1 hx
  rcases List.mem_append.1 hc with hc | hc
  · exact (h w hw).2 hc
  · exact absurd hc (by decide)

/-- The header is read as it was written. -/
theorem readMeta_file {N : Type} (E : Env N) {a b c : ℕ} {dtype info : List Char} (rest : List (List Char))
    (hd : Plain E.date) (hv : Plain E.version) (ht : TypeName dtype) :
    ∃ m, readMeta (headBodies E a b c dtype info ++ "# data".toList :: rest) [] = .ok m ∧
      m.lookup "shape".toList = some (showShape a b c) ∧ m.lookup "dtype".toList = some dtype := by
  unfold headBodies metaInfo
  simp only [List.map_cons, List.map_nil, List.cons_append, List.nil_append]
  rw [readMeta_meta (by decide) (metaBody_plain (by decide) hd.2),
    readMeta_meta (by decide) (metaBody_plain (not_infix 'd' (by decide) (by decide)) hv.2),
    readMeta_meta (by decide) (metaBody_plain (not_infix 'd' (by decide) (by decide)) (showShape_plain a b c).2),
    readMeta_meta (by decide) (metaBody_plain (not_infix 'a' (by decide) (by decide)) ht.2), stored_shape, stored_typeName ht]
  generalize stored E.date = x
  generalize stored E.version = y
  generalize showShape a b c = z
  rw [show ("# ".toList ++ "shape".toList).dropWhile (fun c => decide (c = '#' ∨ c = ' ')) = "shape".toList by decide,
    show ("# ".toList ++ "dtype".toList).dropWhile (fun c => decide (c = '#' ∨ c = ' ')) = "dtype".toList by decide]
  have h1 : ("shape".toList == "dtype".toList) = false := by decide
  have h2 : ("shape".toList == "shape".toList) = true := by decide
  have h3 : ("dtype".toList == "dtype".toList) = true := by decide
  cases hi : hasData (metaBody "info".toList info) with
  | true =>
    refine ⟨_, readMeta_data hi _ _, ?_, ?_⟩
    · rw [List.lookup, h1, List.lookup, h2]
    · rw [List.lookup, h3]
  | false =>
    rw [readMeta_meta (by decide) hi,
      show ("# ".toList ++ "info".toList).dropWhile (fun c => decide (c = '#' ∨ c = ' ')) = "info".toList by decide]
    have h4 : ("shape".toList == "info".toList) = false := by decide
    have h5 : ("dtype".toList == "info".toList) = false := by decide
    refine ⟨_, readMeta_data (by decide) _ _, ?_, ?_⟩
    · rw [List.lookup, h4, List.lookup, h1, List.lookup, h2]
    · rw [List.lookup, h5, List.lookup, h3]

theorem takeWhile_hash {w : List Char} (h : '#' ∉ w) : w.takeWhile (· ≠ '#') = w := by
  rw [List.takeWhile_eq_self_iff]
  intro c hc
  simpa using fun hh : c = '#' => h (hh ▸ hc)

/-- The rows are read as they were written. -/
theorem loadTokens_file {N : Type} (E : Env N) {a b c : ℕ} {dtype info : List Char} (v : Values N) (hc : 0 < c)
    (hl : (tokens E.txt v).length = a * b * c)
    (hone : ∀ w ∈ headBodies E a b c dtype info ++ "# data".toList :: rowBodies E.txt (a * b) c v, OneLine w) :
    loadTokens ((headBodies E a b c dtype info ++ "# data".toList :: rowBodies E.txt (a * b) c v).map
      fun w => w ++ ['\n']).flatten = .ok (tokens E.txt v) := by
  have hr : ∀ r ∈ chunks (a * b) c (tokens E.txt v), ∃ x l, r = x :: l ∧ ∀ w ∈ x :: l, Token w := by
    intro r hr
    have hlen := chunks_length _ _ _ hl r hr
    obtain ⟨x, l, rfl⟩ := List.exists_cons_of_ne_nil (l := r) (by rintro rfl; simp at hlen; omega)
    exact ⟨x, l, rfl, fun w hw => tokens_token E.txt v w (chunks_mem _ _ _ hr hw)⟩
  have hdata : dataLines ((headBodies E a b c dtype info ++ "# data".toList :: rowBodies E.txt (a * b) c v).map
      fun w => w ++ ['\n']).flatten = rowBodies E.txt (a * b) c v := by
    unfold dataLines
    rw [lines_flatten _ fun w hw => (hone w hw).1, List.map_append, List.filter_append, List.map_cons]
    have h1 : ((headBodies E a b c dtype info).map fun l => strip (l.takeWhile (· ≠ '#'))).filter (· ≠ []) = [] := by
      rw [List.filter_eq_nil_iff]
      intro x hx
      obtain ⟨w, hw, rfl⟩ := List.mem_map.1 hx
      obtain ⟨p, -, rfl⟩ := List.mem_map.1 hw
      obtain ⟨t, ht⟩ := metaBody_head p.1 p.2
      rw [ht, List.takeWhile_cons_of_neg (by decide)]
      decide
    have h2 : (rowBodies E.txt (a * b) c v).map (fun l => strip (l.takeWhile (· ≠ '#'))) =
        rowBodies E.txt (a * b) c v := by
      unfold rowBodies
      rw [List.map_map]
      refine List.map_congr_left fun r hrm => ?_
      obtain ⟨x, l, rfl, ht⟩ := hr r hrm
      simp only [Function.comp]
      rw [takeWhile_hash fun h => (row_chars ht h).2.2 rfl, strip_join x l ht]
    rw [h1, h2, List.nil_append, List.filter_cons_of_neg (by decide), List.filter_eq_self]
    intro w hw
    obtain ⟨r, hrm, rfl⟩ := List.mem_map.1 hw
    obtain ⟨x, l, rfl, ht⟩ := hr r hrm
    obtain ⟨hs, -⟩ := joinComma_ends x l ht
    simpa using hs
  unfold loadTokens
  rw [hdata]
  have hsplit : (rowBodies E.txt (a * b) c v).map (fun l => (splitComma l).map strip) =
      chunks (a * b) c (tokens E.txt v) := by
    unfold rowBodies
    rw [List.map_map]
    conv_rhs => rw [← List.map_id (chunks (a * b) c (tokens E.txt v))]
    refine List.map_congr_left fun r hrm => ?_
    obtain ⟨x, l, rfl, ht⟩ := hr r hrm
    exact splitComma_join x l ht
  simp only [hsplit]
  rw [if_pos fun x hx y hy => by rw [chunks_length _ _ _ hl x hx, chunks_length _ _ _ hl y hy],
    chunks_flatten _ _ _ hl]

theorem allSome_map {α β : Type} (f : α → Option β) (g : β → α) (l : List β) (h : ∀ x, f (g x) = some x) :
    allSome f (l.map g) = some l := by
  induction l with
  | nil => rfl
  | cons x l ih => rw [List.map_cons, allSome, h, ih]

end Verif.Io
