import Verif.Model.Io
import Verif.Lemmas.Json
import Mathlib.Algebra.BigOperators.Group.List.Basic
import Mathlib.Tactic.Ring

/-!
# Texts of files
-/

namespace Verif.Io
open Verif.Json

/-! ## Pieces of lists -/

theorem chunks_zero {α : Type} (k : ℕ) (l : List α) : chunks 0 k l = [] := rfl

theorem chunks_succ {α : Type} (n k : ℕ) (l : List α) :
    chunks (n + 1) k l = l.take k :: chunks n k (l.drop k) := by
  unfold chunks
  rw [List.range_succ_eq_map, List.map_cons, List.map_map]
  refine congrArg₂ _ (by simp) (List.map_congr_left fun i _ => ?_)
  simp only [Function.comp, List.drop_drop, Nat.succ_eq_add_one]
  congr 2
  ring

theorem chunks_flatten {α : Type} (n k : ℕ) (l : List α) (h : l.length = n * k) : (chunks n k l).flatten = l := by
  induction n generalizing l with
  | zero => simp at h; subst h; rfl
  | succ n ih =>
    rw [chunks_succ, List.flatten_cons, ih _ (by simp [h, Nat.succ_mul]), List.take_append_drop]

theorem chunks_length {α : Type} (n k : ℕ) (l : List α) (h : l.length = n * k) :
    ∀ x ∈ chunks n k l, x.length = k := by
  induction n generalizing l with
  | zero => intro x hx; cases hx
  | succ n ih =>
    intro x hx
    rw [chunks_succ] at hx
    rcases List.mem_cons.1 hx with rfl | hx
    · simp [h, Nat.succ_mul]
    · exact ih _ (by simp [h, Nat.succ_mul]) x hx

theorem chunks_mem {α : Type} (n k : ℕ) (l : List α) {x : List α} (hx : x ∈ chunks n k l) {a : α} (ha : a ∈ x) :
    a ∈ l := by
  obtain ⟨i, -, rfl⟩ := List.mem_map.1 hx
  exact List.mem_of_mem_drop (List.mem_of_mem_take ha)

/-! ## Arrays in JSON -/

theorem npArrays_map {N α : Type} (f : α → Json N) (g : α → List ℕ × List N) (l : List α)
    (h : ∀ x ∈ l, npArray (f x) = some (g x)) : npArrays (l.map f) = some (l.map g) := by
  induction l with
  | nil => rfl
  | cons x l ih =>
    rw [List.map_cons, npArrays, h x (by simp), ih fun y hy => h y (by simp [hy])]
    rfl

/-- Reading nested lists gives shape and entries if only the last dimension may be empty. -/
theorem npArray_tolist {N : Type} (s : List ℕ) (l : List N) (h : l.length = s.prod)
    (hs : ∀ n ∈ s.dropLast, 0 < n) : npArray (tolist s l) = some (s, l) := by
  induction s generalizing l with
  | nil =>
    rw [List.prod_nil] at h
    obtain ⟨x, rfl⟩ := List.length_eq_one_iff.1 h
    rw [tolist, npArray]
  | cons n s ih =>
    rw [List.prod_cons] at h
    rw [tolist, npArray]
    cases n with
    | zero =>
      have : s = [] := by
        cases s with
        | nil => rfl
        | cons m s => exact absurd (hs 0 (by simp)) (by simp)
      subst this
      simp at h
      subst h
      rw [chunks_zero]
      rfl
    | succ n =>
      have ih' : ∀ x ∈ chunks (n + 1) s.prod l, npArray (tolist s x) = some (s, x) := fun x hx => by
        refine ih x (chunks_length _ _ _ h x hx) fun m hm => hs m ?_
        cases s with
        | nil => cases hm
        | cons m' s => rw [List.dropLast_cons_of_ne_nil (by simp)]; exact List.mem_cons_of_mem _ hm
      rw [npArrays_map (tolist s) (fun x => (s, x)) _ ih']
      have hf := chunks_flatten _ _ _ h
      rw [chunks_succ] at hf ⊢
      rw [List.map_cons]
      simp only
      rw [if_pos (by simp)]
      simp only [List.length_map, List.map_map, Function.comp_def, List.map_id']
      rw [← List.flatten_cons, hf]
      simp [chunks]

/-! ## The text of `save_input` -/

mutual
theorem write_congr {N : Type} (M : Nums N) {σ τ : Style} {d e : ℕ}
    (h : ∀ k, σ.opening (d + k) = τ.opening (e + k) ∧ σ.comma (d + k) = τ.comma (e + k) ∧
      σ.closing (d + k) = τ.closing (e + k)) (v : Json N) : write M σ d v = write M τ e v := by
  have h' : ∀ k, σ.opening (d + 1 + k) = τ.opening (e + 1 + k) ∧ σ.comma (d + 1 + k) = τ.comma (e + 1 + k) ∧
      σ.closing (d + 1 + k) = τ.closing (e + 1 + k) := fun k => by
    rw [Nat.add_assoc, Nat.add_assoc]; exact h _
  cases v with
  | null => rw [write, write]
  | bool b => cases b <;> rw [write, write]
  | num x => rw [write, write]
  | str s => rw [write, write]
  | arr l =>
    cases l with
    | nil => rw [write, write]
    | cons x l =>
      rw [write, write, show σ.opening d = τ.opening e from (h 0).1, write_congr M h' x, writeItems_congr M h l]
  | obj l =>
    match l with
    | [] => rw [write, write]
    | (k, x) :: l =>
      rw [write, write, show σ.opening d = τ.opening e from (h 0).1, write_congr M h' x, writePairs_congr M h l]
theorem writeItems_congr {N : Type} (M : Nums N) {σ τ : Style} {d e : ℕ}
    (h : ∀ k, σ.opening (d + k) = τ.opening (e + k) ∧ σ.comma (d + k) = τ.comma (e + k) ∧
      σ.closing (d + k) = τ.closing (e + k)) (l : List (Json N)) : writeItems M σ d l = writeItems M τ e l := by
  have h' : ∀ k, σ.opening (d + 1 + k) = τ.opening (e + 1 + k) ∧ σ.comma (d + 1 + k) = τ.comma (e + 1 + k) ∧
      σ.closing (d + 1 + k) = τ.closing (e + 1 + k) := fun k => by
    rw [Nat.add_assoc, Nat.add_assoc]; exact h _
  match l with
  | [] => rw [writeItems, writeItems, show σ.closing d = τ.closing e from (h 0).2.2]
  | x :: l =>
    rw [writeItems, writeItems, show σ.comma d = τ.comma e from (h 0).2.1, write_congr M h' x, writeItems_congr M h l]
theorem writePairs_congr {N : Type} (M : Nums N) {σ τ : Style} {d e : ℕ}
    (h : ∀ k, σ.opening (d + k) = τ.opening (e + k) ∧ σ.comma (d + k) = τ.comma (e + k) ∧
      σ.closing (d + k) = τ.closing (e + k)) (l : List (List Char × Json N)) :
    writePairs M σ d l = writePairs M τ e l := by
  have h' : ∀ k, σ.opening (d + 1 + k) = τ.opening (e + 1 + k) ∧ σ.comma (d + 1 + k) = τ.comma (e + 1 + k) ∧
      σ.closing (d + 1 + k) = τ.closing (e + 1 + k) := fun k => by
    rw [Nat.add_assoc, Nat.add_assoc]; exact h _
  match l with
  | [] => rw [writePairs, writePairs, show σ.closing d = τ.closing e from (h 0).2.2]
  | (k, x) :: l =>
    rw [writePairs, writePairs, show σ.comma d = τ.comma e from (h 0).2.1, write_congr M h' x, writePairs_congr M h l]
end

/-- The white space of `save_input`. -/
def inputStyle : Style :=
  ⟨fun d => if d = 0 then "\n  ".toList else [], fun d => if d = 0 then "\n  ".toList else [' '],
    fun d => if d = 0 then ['\n'] else []⟩

theorem inputStyle_ok : inputStyle.Ok := by
  refine ⟨fun d => ?_, fun d => ?_, fun d => ?_⟩ <;> unfold inputStyle AllWs <;>
    by_cases h : d = 0 <;> simp [h, isWs]

theorem write_input {N : Type} (M : Nums N) (v : Json N) : write M inputStyle 1 v = write M compact 1 v := by
  refine write_congr M (fun k => ?_) v
  simp [inputStyle, compact, Nat.add_comm 1 k]

/-- One pair. -/
def pairText {N : Type} (E : Env N) (p : List Char × Json N) : List Char :=
  writeStr p.1 ++ [':', ' '] ++ write E.json compact 1 p.2

theorem dumpsPair_eq {N : Type} (E : Env N) (k : List Char) (v : Json N) : dumpsPair E k v = pairText E (k, v) := by
  unfold dumpsPair pairText
  rw [write, writePairs]
  generalize write E.json compact (0 + 1) v = w
  simp only [compact, List.nil_append, List.cons_append, List.drop_succ_cons, List.drop_zero]
  rw [List.dropLast_concat]

theorem inputLoop_eq {N : Type} (E : Env N) (l : List (List Char × PyVal N)) (out : List Char) :
    inputLoop E l out = (encodeDict l).map fun m =>
      out ++ (m.map fun p => "\n  ".toList ++ pairText E p ++ [',']).flatten := by
  induction l generalizing out with
  | nil => simp [inputLoop, encodeDict]
  | cons p l ih =>
    obtain ⟨k, v⟩ := p
    rw [inputLoop, encodeDict]
    cases encode v with
    | none => rfl
    | some v =>
      simp only
      rw [ih, dumpsPair_eq]
      cases encodeDict l with
      | none => rfl
      | some m => simp

theorem comma_shift {α : Type} (f : α → List Char) (x : α) (l : List α) :
    ((x :: l).map fun p => f p ++ [',']).flatten.dropLast = f x ++ (l.map fun p => ',' :: f p).flatten := by
  induction l generalizing x with
  | nil => simp
  | cons y l ih =>
    rw [List.map_cons, List.flatten_cons, List.dropLast_append_of_ne_nil (by simp), ih]
    simp

theorem writePairs_input {N : Type} (E : Env N) (l : List (List Char × Json N)) :
    writePairs E.json inputStyle 0 l =
      (l.map fun p => ',' :: ("\n  ".toList ++ pairText E p)).flatten ++ "\n}".toList := by
  induction l with
  | nil => rw [writePairs]; rfl
  | cons p l ih =>
    obtain ⟨k, v⟩ := p
    rw [writePairs, ih, write_input]
    simp [inputStyle, pairText]

/-- The text is JSON. -/
theorem input_text {N : Type} (E : Env N) (p : List Char × Json N) (m : List (List Char × Json N)) :
    ('{' :: ((p :: m).map fun p => "\n  ".toList ++ pairText E p ++ [',']).flatten).dropLast ++ "\n}".toList =
      write E.json inputStyle 0 (.obj (p :: m)) := by
  rw [List.dropLast_cons_of_ne_nil (by simp), comma_shift (fun p => "\n  ".toList ++ pairText E p)]
  obtain ⟨k, v⟩ := p
  rw [write, writePairs_input, write_input]
  simp [inputStyle, pairText]

/-! ## Lines and tokens -/

theorem universal_eq {s : List Char} (h : '\r' ∉ s) : universal s = s := by
  induction s with
  | nil => rfl
  | cons c t ih =>
    have hc : c ≠ '\r' := fun hc => h (by simp [hc])
    have ht : '\r' ∉ t := fun ht => h (by simp [ht])
    rw [universal.eq_def]
    split
    · rename_i heq; cases heq
    · rename_i heq; cases heq; exact absurd rfl hc
    · rename_i heq; cases heq; exact absurd rfl hc
    · rename_i heq; cases heq; rw [ih ht]

theorem lines_cons {w : List Char} (h : '\n' ∉ w) (t : List Char) : lines (w ++ '\n' :: t) = w :: lines t := by
  induction w with
  | nil => simp [lines]
  | cons c w ih =>
    have hc : c ≠ '\n' := fun hc => h (by simp [hc])
    rw [List.cons_append, lines, if_neg hc, ih fun hw => h (by simp [hw])]

theorem lines_flatten (l : List (List Char)) (h : ∀ w ∈ l, '\n' ∉ w) :
    lines (l.map fun w => w ++ ['\n']).flatten = l := by
  induction l with
  | nil => rfl
  | cons w l ih =>
    rw [List.map_cons, List.flatten_cons, List.append_assoc, List.singleton_append, lines_cons (h w (by simp)),
      ih fun x hx => h x (by simp [hx])]

theorem infix_split {α : Type} {w p v : List α} {c : α} (hc : c ∉ w) (h : w <:+: p ++ c :: v) :
    w <:+: p ∨ w <:+: v := by
  rcases List.infix_append_iff.1 h with h | h | ⟨x, y, rfl, hx, hy⟩
  · exact Or.inl h
  · rcases List.infix_cons_iff.1 h with h | h
    · cases w with
      | nil => exact Or.inr (List.nil_infix)
      | cons a w => exact absurd (by rw [(List.cons_prefix_cons.1 h).1]; simp) hc
    · exact Or.inr h
  · cases y with
    | nil => exact Or.inl (by simpa using hx.isInfix)
    | cons a y => exact absurd (by rw [(List.cons_prefix_cons.1 hy).1]; simp) hc

theorem rstrip_eq {s : List Char} (h : ∀ c ∈ s, blank c = false) : rstrip s = s := by
  unfold rstrip
  rw [List.rdropWhile_eq_self_iff]
  intro hl
  simp [h _ (List.getLast_mem hl)]

theorem strip_eq {s : List Char} (h : ∀ c ∈ s, blank c = false) : strip s = s := by
  unfold strip
  rw [show s.dropWhile blank = s from ?_, rstrip_eq h]
  cases s with
  | nil => rfl
  | cons c t => rw [List.dropWhile_cons_of_neg (by simp [h c (by simp)])]

/-- Only the ends count. -/
theorem strip_ends {s : List Char} (hs : s ≠ []) (h1 : blank (s.head hs) = false)
    (h2 : blank (s.getLast hs) = false) : strip s = s := by
  unfold strip rstrip
  rw [show s.dropWhile blank = s from ?_, List.rdropWhile_eq_self_iff.2 fun _ => by simp [h2]]
  cases s with
  | nil => rfl
  | cons c t => rw [List.dropWhile_cons_of_neg (by simpa using h1)]

theorem strip_space (s : List Char) : strip (' ' :: s) = strip s := by
  unfold strip
  rw [List.dropWhile_cons_of_pos (by decide)]

theorem splitComma_ne (s : List Char) : splitComma s ≠ [] := by
  cases s with
  | nil => simp [splitComma]
  | cons c t =>
    rw [splitComma]
    split_ifs
    · simp
    · split <;> simp

theorem splitComma_cons {w : List Char} (h : ',' ∉ w) (t : List Char) :
    splitComma (w ++ ',' :: t) = w :: splitComma t := by
  induction w with
  | nil => simp [splitComma]
  | cons c w ih =>
    have hc : c ≠ ',' := fun hc => h (by simp [hc])
    rw [List.cons_append, splitComma, if_neg hc, ih fun hw => h (by simp [hw])]

theorem splitComma_single {w : List Char} (h : ',' ∉ w) : splitComma w = [w] := by
  induction w with
  | nil => rfl
  | cons c w ih =>
    have hc : c ≠ ',' := fun hc => h (by simp [hc])
    rw [splitComma, if_neg hc, ih fun hw => h (by simp [hw])]

theorem splitComma_space (s : List Char) : (splitComma (' ' :: s)).map strip = (splitComma s).map strip := by
  rw [splitComma, if_neg (by decide)]
  cases h : splitComma s with
  | nil => exact absurd h (splitComma_ne s)
  | cons a l => simp only [List.map_cons, strip_space]

/-- A token: something without blanks, commas or `#`. -/
def Token (w : List Char) : Prop := w ≠ [] ∧ ∀ c ∈ w, blank c = false ∧ c ≠ ',' ∧ c ≠ '#'

theorem splitComma_join (x : List Char) (l : List (List Char)) (h : ∀ w ∈ x :: l, Token w) :
    (splitComma (joinComma (x :: l))).map strip = x :: l := by
  induction l generalizing x with
  | nil =>
    have hx := h x (by simp)
    rw [joinComma, splitComma_single fun hc => (hx.2 _ hc).2.1 rfl, List.map_cons, List.map_nil,
      strip_eq fun c hc => (hx.2 c hc).1]
  | cons y l ih =>
    have hx := h x (by simp)
    rw [joinComma, List.append_assoc, show ", ".toList ++ joinComma (y :: l) = ',' :: ' ' :: joinComma (y :: l) from rfl,
      splitComma_cons fun hc => (hx.2 _ hc).2.1 rfl, List.map_cons, splitComma_space,
      ih y fun w hw => h w (by simp at hw ⊢; tauto), strip_eq fun c hc => (hx.2 c hc).1]

theorem joinComma_mem {l : List (List Char)} {c : Char} (h : c ∈ joinComma l) :
    c = ',' ∨ c = ' ' ∨ ∃ w ∈ l, c ∈ w := by
  induction l with
  | nil => cases h
  | cons x l ih =>
    cases l with
    | nil => exact Or.inr (Or.inr ⟨x, by simp, h⟩)
    | cons y l =>
      rw [joinComma] at h
      rcases List.mem_append.1 h with h | h
      · rcases List.mem_append.1 h with h | h
        · exact Or.inr (Or.inr ⟨x, by simp, h⟩)
        · simp at h; tauto
      · rcases ih h with h | h | ⟨w, hw, h⟩
        · exact Or.inl h
        · exact Or.inr (Or.inl h)
        · exact Or.inr (Or.inr ⟨w, by simp at hw ⊢; tauto, h⟩)

theorem joinComma_ends (x : List Char) (l : List (List Char)) (h : ∀ w ∈ x :: l, Token w) :
    ∃ hs : joinComma (x :: l) ≠ [], blank ((joinComma (x :: l)).head hs) = false ∧
      blank ((joinComma (x :: l)).getLast hs) = false := by
  induction l generalizing x with
  | nil =>
    have hx := h x (by simp)
    exact ⟨hx.1, (hx.2 _ (List.head_mem hx.1)).1, (hx.2 _ (List.getLast_mem hx.1)).1⟩
  | cons y l ih =>
    have hx := h x (by simp)
    obtain ⟨hs, -, h2⟩ := ih y fun w hw => h w (by simp at hw ⊢; tauto)
    refine ⟨by rw [joinComma]; simp, ?_, ?_⟩
    · simp only [joinComma, List.append_assoc]
      rw [List.head_append_of_ne_nil hx.1]
      exact (hx.2 _ (List.head_mem hx.1)).1
    · simp only [joinComma]
      rw [List.getLast_append_of_ne_nil _ hs]
      exact h2

theorem strip_join (x : List Char) (l : List (List Char)) (h : ∀ w ∈ x :: l, Token w) :
    strip (joinComma (x :: l)) = joinComma (x :: l) := by
  obtain ⟨hs, h1, h2⟩ := joinComma_ends x l h
  exact strip_ends hs h1 h2

/-! ## Whole numbers -/

theorem digits_isDigit {n : ℕ} {c : Char} (h : c ∈ digits n) : c.isDigit = true :=
  Nat.isDigit_of_mem_toDigits (by decide) (by decide) h

theorem digits_ne (n : ℕ) : digits n ≠ [] := Nat.toDigits_ne_nil

theorem isDigit_range {c : Char} (h : c.isDigit = true) : 48 ≤ c.toNat ∧ c.toNat ≤ 57 := by
  simp only [Char.isDigit, Bool.and_eq_true, decide_eq_true_eq] at h
  exact ⟨h.1, h.2⟩

theorem digit_blank {c : Char} (h : c.isDigit = true) : blank c = false := by
  have h := isDigit_range h
  simp only [blank, decide_eq_false_iff_not]
  rintro (rfl | rfl | rfl | rfl | h' | h')
  all_goals first | omega | (revert h; decide)

theorem digits_token (n : ℕ) : Token (digits n) := by
  refine ⟨digits_ne n, fun c hc => ⟨digit_blank (digits_isDigit hc), ?_, ?_⟩⟩ <;> rintro rfl <;>
    exact absurd (digits_isDigit hc) (by decide)

theorem readNat_digits (n : ℕ) : readNat (digits n) = some n := by
  unfold readNat
  rw [strip_eq fun c hc => ((digits_token n).2 c hc).1]
  simp only
  rw [if_pos ⟨digits_ne n, fun c hc => digits_isDigit hc⟩]
  exact congrArg some (Nat.ofDigitChars_ten_toDigits (n := n))

theorem readNat_space (s : List Char) : readNat (' ' :: s) = readNat s := by
  unfold readNat
  rw [strip_space]

end Verif.Io
