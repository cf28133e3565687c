import Verif.Model.Json
import Mathlib.Tactic.IntervalCases
import Mathlib.Tactic.Linarith

/-!
# Reading what was written
-/

namespace Verif.Json

theorem hexVal_hexChar {d : ℕ} (h : d < 16) : hexVal (hexChar d) = some d := by
  interval_cases d <;> decide

theorem hex4_uEsc {n : ℕ} (h : n < 65536) (t : List Char) :
    hex4 (hexChar (n / 4096 % 16) :: hexChar (n / 256 % 16) :: hexChar (n / 16 % 16) :: hexChar (n % 16) :: t) =
      some (n, t) := by
  simp only [hex4, hexVal_hexChar (Nat.mod_lt _ (by norm_num : 0 < 16))]
  congr 2
  omega

theorem char_valid (c : Char) : c.toNat < 55296 ∨ 57343 < c.toNat ∧ c.toNat < 1114112 := c.valid

theorem ofNat_eq {c : Char} {n : ℕ} (h : n = c.toNat) : Char.ofNat n = c := by
  rw [h, Char.ofNat_toNat]

theorem unicode_low {c : Char} (h : c.toNat < 65536) (t : List Char) :
    unicode (hexChar (c.toNat / 4096 % 16) :: hexChar (c.toNat / 256 % 16) :: hexChar (c.toNat / 16 % 16) ::
      hexChar (c.toNat % 16) :: t) = some (c, t) := by
  have hv := char_valid c
  rw [unicode, hex4_uEsc h]
  simp only
  rw [if_neg (by omega), Char.ofNat_toNat]

theorem unicode_pair {a b : ℕ} {c : Char} (ha : 55296 ≤ a ∧ a ≤ 56319) (hb : 56320 ≤ b ∧ b ≤ 57343)
    (hc : 65536 + ((a - 55296) * 1024 + (b - 56320)) = c.toNat) (t : List Char) :
    unicode ((uEsc a).drop 2 ++ uEsc b ++ t) = some (c, t) := by
  rw [unicode]
  simp only [uEsc, List.drop_succ_cons, List.drop_zero, List.cons_append, List.nil_append]
  rw [hex4_uEsc (by omega)]
  simp only
  rw [if_pos ha, hex4_uEsc (by omega)]
  simp only
  rw [if_pos hb, ofNat_eq hc]

theorem unicode_high {c : Char} (h : ¬ c.toNat < 65536) (t : List Char) :
    unicode ((uEsc (55296 + (c.toNat - 65536) / 1024 % 1024)).drop 2 ++
      uEsc (56320 + (c.toNat - 65536) % 1024) ++ t) = some (c, t) := by
  have hv := char_valid c
  exact unicode_pair (by omega) (by omega) (by omega) t

theorem scan_esc (n : ℕ) (c : Char) (t : List Char) :
    scan (n + 1) (escChar c ++ t) = (scan n t).map fun r => (c :: r.1, r.2) := by
  have hu : ∀ x : Char, ∀ u v, unicode u = some (x, v) →
      scan (n + 1) ('\\' :: 'u' :: u) = (scan n v).map fun r => (x :: r.1, r.2) := by
    intro x u v h
    rw [scan, if_neg (by decide), if_pos rfl]
    simp only [if_true, h]
  have hp : ∀ e x : Char, e ≠ 'u' → plainEsc e = some x →
      scan (n + 1) ('\\' :: e :: t) = (scan n t).map fun r => (x :: r.1, r.2) := by
    intro e x he h
    rw [scan, if_neg (by decide), if_pos rfl]
    simp only [if_neg he, h]
  unfold escChar
  by_cases h1 : c = '"'
  · rw [if_pos h1, h1]; exact hp _ _ (by decide) (by decide)
  rw [if_neg h1]
  by_cases h2 : c = '\\'
  · rw [if_pos h2, h2]; exact hp _ _ (by decide) (by decide)
  rw [if_neg h2]
  by_cases h3 : c = '\n'
  · rw [if_pos h3, h3]; exact hp _ _ (by decide) (by decide)
  rw [if_neg h3]
  by_cases h4 : c = '\r'
  · rw [if_pos h4, h4]; exact hp _ _ (by decide) (by decide)
  rw [if_neg h4]
  by_cases h5 : c = '\t'
  · rw [if_pos h5, h5]; exact hp _ _ (by decide) (by decide)
  rw [if_neg h5]
  by_cases h6 : c = Char.ofNat 12
  · rw [if_pos h6, h6]; exact hp _ _ (by decide) (by decide)
  rw [if_neg h6]
  by_cases h7 : c = Char.ofNat 8
  · rw [if_pos h7, h7]; exact hp _ _ (by decide) (by decide)
  rw [if_neg h7]
  by_cases h8 : 32 ≤ c.toNat ∧ c.toNat ≤ 126
  · rw [if_pos h8, List.cons_append, List.nil_append, scan.eq_def]
    simp only [if_neg h1, if_neg h2]
    rw [if_neg (by omega)]
  rw [if_neg h8]
  by_cases h9 : c.toNat < 65536
  · rw [if_pos h9]
    exact hu c _ t (unicode_low h9 t)
  · rw [if_neg h9]
    exact hu c _ t (unicode_high h9 t)

theorem escChar_pos (c : Char) : 0 < (escChar c).length := by
  unfold escChar
  split_ifs <;> simp [uEsc]

theorem scan_write (s t : List Char) (n : ℕ) (h : s.length < n) :
    scan n (s.flatMap escChar ++ '"' :: t) = some (s, t) := by
  induction s generalizing n with
  | nil =>
    obtain ⟨m, rfl⟩ : ∃ m, n = m + 1 := ⟨n - 1, by simp at h; omega⟩
    rw [List.flatMap_nil, List.nil_append, scan.eq_def]
    simp only [if_true]
  | cons c s ih =>
    obtain ⟨m, rfl⟩ : ∃ m, n = m + 1 := ⟨n - 1, by simp at h; omega⟩
    rw [List.flatMap_cons, List.append_assoc, scan_esc, ih m (by simp at h; omega)]
    rfl

theorem length_esc (s : List Char) : s.length ≤ (s.flatMap escChar).length := by
  induction s with
  | nil => simp
  | cons c s ih =>
    have := escChar_pos c
    rw [List.flatMap_cons, List.length_append, List.length_cons]
    omega

theorem readStr_write (s t : List Char) : readStr (s.flatMap escChar ++ '"' :: t) = some (s, t) := by
  refine scan_write s t _ ?_
  have := length_esc s
  simp only [List.length_append, List.length_cons]
  omega

/-- White space only. -/
def AllWs (s : List Char) : Prop := ∀ c ∈ s, isWs c = true

/-- A style of white space only. -/
structure Style.Ok (σ : Style) : Prop where
  opening : ∀ d, AllWs (σ.opening d)
  comma : ∀ d, AllWs (σ.comma d)
  closing : ∀ d, AllWs (σ.closing d)

theorem skip_ws {w : List Char} (h : AllWs w) (t : List Char) : skip (w ++ t) = skip t := by
  induction w with
  | nil => rfl
  | cons c w ih =>
    rw [List.cons_append, skip, List.dropWhile_cons, if_pos (h c (by simp))]
    exact ih fun x hx => h x (by simp [hx])

theorem skip_cons {c : Char} (h : isWs c = false) (t : List Char) : skip (c :: t) = c :: t := by
  rw [skip, List.dropWhile_cons, if_neg (by simp [h])]

/-- What may follow a number. -/
def Stops (t : List Char) : Prop := ∀ c u, t = c :: u → numChar c = false

theorem not_num_ws {c : Char} (h : isWs c = true) : numChar c = false := by
  simp only [isWs, decide_eq_true_eq] at h
  rcases h with rfl | rfl | rfl | rfl <;> decide

theorem stops_ws {w t : List Char} (h : AllWs w) (ht : Stops t) : Stops (w ++ t) := by
  cases w with
  | nil => exact ht
  | cons c w =>
    intro x u hx
    simp only [List.cons_append, List.cons.injEq] at hx
    rw [← hx.1]
    exact not_num_ws (h c (by simp))

theorem stops_cons {c : Char} {t : List Char} (h : numChar c = false) : Stops (c :: t) := by
  intro x u hx
  simp only [List.cons.injEq] at hx
  rw [← hx.1]; exact h

theorem takeWhile_num {w t : List Char} (h : ∀ c ∈ w, numChar c = true) (ht : Stops t) :
    (w ++ t).takeWhile numChar = w ∧ (w ++ t).dropWhile numChar = t := by
  induction w with
  | nil =>
    cases t with
    | nil => exact ⟨rfl, rfl⟩
    | cons c t =>
      have := ht c t rfl
      simp [this]
  | cons c w ih =>
    have hc := h c (by simp)
    have := ih fun x hx => h x (by simp [hx])
    simp [hc, this]

/-- The first character of a written value. -/
theorem write_head {N : Type} (M : Nums N) (σ : Style) (d : ℕ) (v : Json N) :
    ∃ c t, write M σ d v = c :: t ∧ isWs c = false ∧ c ≠ ']' ∧ c ≠ '}' := by
  cases v with
  | null => exact ⟨'n', _, by rw [write]; rfl, by decide, by decide, by decide⟩
  | bool b =>
    cases b
    · exact ⟨'f', _, by rw [write]; rfl, by decide, by decide, by decide⟩
    · exact ⟨'t', _, by rw [write]; rfl, by decide, by decide, by decide⟩
  | num x =>
    rw [write]
    cases h : M.write x with
    | nil => exact absurd h (M.nonempty x)
    | cons c t =>
      have hc : numChar c = true := M.chars x c (by rw [h]; simp)
      refine ⟨c, t, rfl, ?_, ?_, ?_⟩
      · by_contra hw
        rw [Bool.not_eq_false] at hw
        rw [not_num_ws hw] at hc
        exact absurd hc (by decide)
      · rintro rfl; exact absurd hc (by decide)
      · rintro rfl; exact absurd hc (by decide)
  | str s => exact ⟨'"', _, by rw [write]; rfl, by decide, by decide, by decide⟩
  | arr l =>
    cases l with
    | nil => exact ⟨'[', _, by rw [write], by decide, by decide, by decide⟩
    | cons x l => exact ⟨'[', _, by rw [write]; rfl, by decide, by decide, by decide⟩
  | obj l =>
    cases l with
    | nil => exact ⟨'{', _, by rw [write], by decide, by decide, by decide⟩
    | cons x l =>
      obtain ⟨k, x⟩ := x
      exact ⟨'{', _, by rw [write]; rfl, by decide, by decide, by decide⟩

theorem skip_write {N : Type} (M : Nums N) (σ : Style) (d : ℕ) (v : Json N) (t : List Char) :
    skip (write M σ d v ++ t) = write M σ d v ++ t := by
  obtain ⟨c, u, h, hc, -⟩ := write_head M σ d v
  rw [h, List.cons_append, skip_cons hc]

theorem skip_str (s t : List Char) : skip (writeStr s ++ t) = writeStr s ++ t := by
  rw [writeStr, List.cons_append, List.cons_append, skip_cons (by decide)]

theorem parse_num {N : Type} (M : Nums N) (x : N) (n : ℕ) (t : List Char) (ht : Stops t) :
    parse M (n + 1) (M.write x ++ t) = some (.num x, t) := by
  obtain ⟨h1, h2⟩ := takeWhile_num (M.chars x) ht
  cases h : M.write x with
  | nil => exact absurd h (M.nonempty x)
  | cons c u =>
    have hc : numChar c = true := M.chars x c (by rw [h]; simp)
    have hne : ∀ e : Char, numChar e = false → c ≠ e := by
      rintro e he rfl
      rw [he] at hc
      exact absurd hc (by decide)
    have hne' : ∀ (e : Char) (w : List Char) (k : ℕ), numChar e = false →
        ((c :: (u ++ t)).take (k + 1) ≠ e :: w) := by
      intro e w k he hw
      simp only [List.take_succ_cons, List.cons.injEq] at hw
      exact hne e he hw.1
    rw [h] at h1 h2
    rw [List.cons_append] at h1 h2 ⊢
    rw [parse, if_neg (hne _ (by decide)), if_neg (hne _ (by decide)), if_neg (hne _ (by decide)),
      if_neg (show ¬ _ = "null".toList from hne' 'n' "ull".toList 3 (by decide)),
      if_neg (show ¬ _ = "true".toList from hne' 't' "rue".toList 3 (by decide)),
      if_neg (show ¬ _ = "false".toList from hne' 'f' "alse".toList 4 (by decide)),
      h1, h2, ← h, M.read_write]
    rfl

mutual
theorem parse_write {N : Type} (M : Nums N) {σ : Style} (hσ : σ.Ok) (d : ℕ) (v : Json N) (n : ℕ) (t : List Char)
    (ht : Stops t) (hn : 2 * (write M σ d v).length ≤ n) :
    parse M n (write M σ d v ++ t) = some (v, t) := by
  have hpos : 0 < (write M σ d v).length := by
    obtain ⟨c, u, h, -⟩ := write_head M σ d v
    rw [h]; simp
  obtain ⟨m, rfl⟩ : ∃ m, n = m + 1 := ⟨n - 1, by omega⟩
  match v with
  | .null => rw [write]; rfl
  | .bool true => rw [write]; rfl
  | .bool false => rw [write]; rfl
  | .num x => rw [write]; exact parse_num M x m t ht
  | .str s =>
    rw [write, writeStr, List.cons_append, List.cons_append, parse, if_pos rfl, List.append_assoc,
      List.cons_append, List.nil_append, readStr_write]
    rfl
  | .arr [] => rw [write]; rfl
  | .arr (x :: l) =>
    rw [write] at hn ⊢
    have := parseItems_write M hσ d x l m t (by simp at hn ⊢; omega)
    obtain ⟨c, u, hw, hws, hc1, hc2⟩ := write_head M σ (d + 1) x
    have hs : skip (σ.opening d ++ write M σ (d + 1) x ++ writeItems M σ d l ++ t) =
        write M σ (d + 1) x ++ writeItems M σ d l ++ t := by
      rw [List.append_assoc, List.append_assoc, List.append_assoc, skip_ws (hσ.opening d), skip_write]
    rw [List.cons_append, List.cons_append, List.cons_append, parse, if_neg (by decide), if_pos rfl, hs]
    rw [hw] at this ⊢
    simp only [List.cons_append] at this ⊢
    split
    · rename_i u' hu
      simp only [List.cons.injEq] at hu
      exact absurd hu.1 hc1
    · rw [this]; rfl
  | .obj [] => rw [write]; rfl
  | .obj ((k, x) :: l) =>
    rw [write] at hn ⊢
    have := parsePairs_write M hσ d k x l m t (by simp at hn ⊢; omega)
    have hs : skip (σ.opening d ++ writeStr k ++ [':', ' '] ++ write M σ (d + 1) x ++ writePairs M σ d l ++ t) =
        writeStr k ++ [':', ' '] ++ write M σ (d + 1) x ++ writePairs M σ d l ++ t := by
      simp only [List.append_assoc]
      rw [skip_ws (hσ.opening d), skip_str]
    rw [List.cons_append, List.cons_append, List.cons_append, List.cons_append, List.cons_append, parse,
      if_neg (by decide), if_neg (by decide), if_pos rfl, hs]
    rw [writeStr] at this ⊢
    simp only [List.cons_append] at this ⊢
    split
    · rename_i u' hu
      simp at hu
    · rw [this]; rfl
termination_by n
theorem parseItems_write {N : Type} (M : Nums N) {σ : Style} (hσ : σ.Ok) (d : ℕ) (x : Json N) (l : List (Json N))
    (n : ℕ) (t : List Char)
    (hn : 2 * (write M σ (d + 1) x ++ writeItems M σ d l).length + 1 ≤ n) :
    parseItems M n (write M σ (d + 1) x ++ writeItems M σ d l ++ t) = some (x :: l, t) := by
  obtain ⟨m, rfl⟩ : ∃ m, n = m + 1 := ⟨n - 1, by omega⟩
  rw [List.length_append] at hn
  match l with
  | [] =>
    have hp := parse_write M hσ (d + 1) x m (writeItems M σ d [] ++ t)
      (by rw [writeItems, List.append_assoc]; exact stops_ws (hσ.closing d) (stops_cons (by decide))) (by omega)
    rw [parseItems, List.append_assoc, hp]
    simp only
    rw [writeItems, List.append_assoc, skip_ws (hσ.closing d), List.cons_append, skip_cons (by decide)]
    rfl
  | y :: l =>
    have hp := parse_write M hσ (d + 1) x m (writeItems M σ d (y :: l) ++ t)
      (by rw [writeItems]; exact stops_cons (by decide)) (by omega)
    rw [parseItems, List.append_assoc, hp]
    simp only
    rw [writeItems] at hn ⊢
    simp only [List.cons_append, List.append_assoc]
    rw [skip_cons (by decide)]
    simp only
    rw [skip_ws (hσ.comma d), skip_write, ← List.append_assoc,
      parseItems_write M hσ d y l m t (by simp only [List.length_append, List.length_cons] at hn ⊢; omega)]
    rfl
termination_by n
theorem parsePairs_write {N : Type} (M : Nums N) {σ : Style} (hσ : σ.Ok) (d : ℕ) (k : List Char) (x : Json N)
    (l : List (List Char × Json N)) (n : ℕ) (t : List Char)
    (hn : 2 * (writeStr k ++ [':', ' '] ++ write M σ (d + 1) x ++ writePairs M σ d l).length + 1 ≤ n) :
    parsePairs M n (writeStr k ++ [':', ' '] ++ write M σ (d + 1) x ++ writePairs M σ d l ++ t) =
      some ((k, x) :: l, t) := by
  obtain ⟨m, rfl⟩ : ∃ m, n = m + 1 := ⟨n - 1, by omega⟩
  have head : ∀ v, readStr (k.flatMap escChar ++ ['"'] ++ v) = some (k, v) := by
    intro v
    rw [List.append_assoc, List.cons_append, List.nil_append, readStr_write]
  simp only [List.length_append] at hn
  match l with
  | [] =>
    have hp := parse_write M hσ (d + 1) x m (writePairs M σ d [] ++ t)
      (by rw [writePairs, List.append_assoc]; exact stops_ws (hσ.closing d) (stops_cons (by decide))) (by omega)
    simp only [writeStr, List.cons_append]
    rw [parsePairs]
    simp only [List.append_assoc, List.cons_append, List.nil_append]
    rw [readStr_write]
    simp only
    rw [skip_cons (by decide)]
    simp only
    rw [show (' ' :: (write M σ (d + 1) x ++ (writePairs M σ d [] ++ t))) =
      [' '] ++ (write M σ (d + 1) x ++ (writePairs M σ d [] ++ t)) from rfl,
      skip_ws (by intro c hc; simp only [List.mem_singleton] at hc; subst hc; decide), skip_write, hp]
    simp only
    rw [writePairs, List.append_assoc, skip_ws (hσ.closing d), List.cons_append, skip_cons (by decide)]
    rfl
  | (k', y) :: l =>
    have hp := parse_write M hσ (d + 1) x m (writePairs M σ d ((k', y) :: l) ++ t)
      (by rw [writePairs]; exact stops_cons (by decide)) (by omega)
    simp only [writeStr, List.cons_append]
    rw [parsePairs]
    simp only [List.append_assoc, List.cons_append, List.nil_append]
    rw [readStr_write]
    simp only
    rw [skip_cons (by decide)]
    simp only
    rw [show (' ' :: (write M σ (d + 1) x ++ (writePairs M σ d ((k', y) :: l) ++ t))) =
      [' '] ++ (write M σ (d + 1) x ++ (writePairs M σ d ((k', y) :: l) ++ t)) from rfl,
      skip_ws (by intro c hc; simp only [List.mem_singleton] at hc; subst hc; decide), skip_write, hp]
    simp only
    have ih := parsePairs_write M hσ d k' y l m t
      (by rw [writePairs] at hn; simp only [List.length_append, List.length_cons, List.length_nil] at hn ⊢; omega)
    rw [writePairs]
    simp only [List.cons_append, List.append_assoc]
    rw [skip_cons (by decide)]
    simp only
    rw [skip_ws (hσ.comma d), skip_str]
    simp only [List.append_assoc, List.cons_append, List.nil_append] at ih ⊢
    rw [ih]
    rfl
termination_by n
end

/-- Reading what was written, in any style and with white space around. -/
theorem load_write {N : Type} (M : Nums N) {σ : Style} (hσ : σ.Ok) (d : ℕ) (v : Json N) :
    load M (write M σ d v) = some v := by
  have hp := parse_write M hσ d v (2 * (write M σ d v).length + 2) [] (by intro c u h; simp at h) (by omega)
  rw [List.append_nil] at hp
  have hs := skip_write M σ d v []
  rw [List.append_nil] at hs
  rw [load, hs, hp]
  rfl

theorem compact_ok : compact.Ok := by
  constructor <;> intro d c hc <;> simp [compact] at hc
  subst hc; decide

theorem indented_ok (n : ℕ) : (indented n).Ok := by
  constructor <;> intro d c hc <;> simp only [indented, List.mem_cons, List.mem_replicate] at hc <;>
    rcases hc with rfl | ⟨-, rfl⟩ <;> decide

end Verif.Json
