import Verif.Model.Fdesign
import Verif.Props.C33_FilterFiles

/-!
# C42: files of filter designs
-/

namespace Verif.Props
open Verif.Fdesign Verif.Json Verif.Io Verif.Filters

/-! ## Texts -/

theorem words_space {w : List Char} (h0 : w ≠ []) (h : ∀ c ∈ w, blank c = false) (t : List Char) :
    words (w ++ ' ' :: t) = w :: words t := by
  have hn : words (' ' :: t) = words t := by
    rw [words.eq_def]; simp only; rw [if_pos (by decide)]
  induction w with
  | nil => exact absurd rfl h0
  | cons c w ih =>
    rw [List.cons_append, words.eq_def]
    simp only
    rw [if_neg (by simp [h c (by simp)])]
    cases w with
    | nil =>
      simp only [List.nil_append]
      rw [if_pos (by decide), hn]
    | cons d w =>
      have := ih (by simp) fun x hx => h x (by simp at hx ⊢; tauto)
      simp only [List.cons_append] at this ⊢
      rw [if_neg (by simp [h d (by simp)]), this]

theorem rowText_words {N : Type} (F : RowNums N) (l : List N) : words (rowText F l) = l.map F.write := by
  induction l with
  | nil => rfl
  | cons x l ih =>
    cases l with
    | nil =>
      rw [rowText]
      exact words_single (F.nonempty x) fun c hc => (F.plain x c hc).1
    | cons y l =>
      rw [rowText, words_space (F.nonempty x) fun c hc => (F.plain x c hc).1, ih]
      rfl

theorem rowText_mem {N : Type} (F : RowNums N) (l : List N) {c : Char} (h : c ∈ rowText F l) :
    c = ' ' ∨ ∃ x, c ∈ F.write x := by
  induction l with
  | nil => simp [rowText] at h
  | cons x l ih =>
    cases l with
    | nil => exact .inr ⟨x, h⟩
    | cons y l =>
      rw [rowText, List.mem_append, List.mem_cons] at h
      rcases h with h | h | h
      · exact .inr ⟨x, h⟩
      · exact .inl h
      · exact ih h

theorem rowText_strip {N : Type} (F : RowNums N) (l : List N) : strip (rowText F l) = rowText F l := by
  cases l with
  | nil => rfl
  | cons x l =>
    have hend : ∀ (x : N) (l : List N), ∃ s c, rowText F (x :: l) = s ++ [c] ∧ blank c = false := by
      intro x l
      induction l generalizing x with
      | nil =>
        rw [rowText]
        refine ⟨(F.write x).dropLast, (F.write x).getLast (F.nonempty x), (List.dropLast_append_getLast _).symm, ?_⟩
        exact (F.plain x _ (List.getLast_mem _)).1
      | cons y l ih =>
        obtain ⟨s, c, h1, h2⟩ := ih y
        exact ⟨F.write x ++ ' ' :: s, c, by rw [rowText, h1]; simp, h2⟩
    have hhead : ∃ c s, rowText F (x :: l) = c :: s ∧ blank c = false := by
      obtain ⟨c, s, hc⟩ := List.exists_cons_of_ne_nil (F.nonempty x)
      have hb : blank c = false := (F.plain x c (by rw [hc]; simp)).1
      cases l with
      | nil => exact ⟨c, s, hc, hb⟩
      | cons y l => exact ⟨c, s ++ ' ' :: rowText F (y :: l), by rw [rowText, hc]; rfl, hb⟩
    obtain ⟨c, s, h1, h2⟩ := hhead
    obtain ⟨s', c', h3, h4⟩ := hend x l
    refine strip_ends (by rw [h1]; simp) ?_ ?_
    · simp only [h1]; exact h2
    · simp only [h3]; simpa using h4

theorem rowText_ne {N : Type} (F : RowNums N) (l : List N) (h : l ≠ []) : rowText F l ≠ [] := by
  intro h0
  have := rowText_words F l
  rw [h0] at this
  exact h (List.map_eq_nil_iff.1 this.symm)

theorem header_noNewline (a b : ℕ) : ∀ l ∈ headerLines a b, '\n' ∉ l := by
  have hd : ∀ n, '\n' ∉ digits n := fun n h => by
    have := digits_isDigit h
    exact absurd this (by decide)
  intro l hl
  simp only [headerLines, List.mem_cons, List.not_mem_nil, or_false] at hl
  rcases hl with rfl | rfl | rfl | rfl | rfl | rfl | rfl | rfl | rfl | rfl
  all_goals first
    | decide
    | simp only [List.mem_append, not_or]
  all_goals first
    | (refine ⟨⟨⟨⟨⟨⟨?_, ?_⟩, ?_⟩, ?_⟩, ?_⟩, ?_⟩, ?_⟩ <;> first | exact hd _ | decide)
    | (refine ⟨⟨⟨⟨⟨⟨⟨⟨?_, ?_⟩, ?_⟩, ?_⟩, ?_⟩, ?_⟩, ?_⟩, ?_⟩, ?_⟩ <;> first | exact hd _ | decide)
    | (refine ⟨⟨?_, ?_⟩, ?_⟩ <;> first | exact hd _ | decide)

/-- The lines of the file with data are the rows. -/
theorem dataLines_full {N : Type} (F : RowNums N) (u : Full N) (h : ∀ row ∈ fullRows F u, row ≠ []) :
    dataLines (fullText F u) = (fullRows F u).map (rowText F) := by
  have hplain : ∀ row : List N, '\n' ∉ rowText F row ∧ '#' ∉ rowText F row := by
    intro row
    constructor <;> intro hc <;> rcases rowText_mem F row hc with h | ⟨x, hx⟩
    · exact absurd h (by decide)
    · exact absurd (F.plain x _ hx).1 (by decide)
    · exact absurd h (by decide)
    · exact (F.plain x _ hx).2 rfl
  rw [dataLines, fullText, List.flatMap_def, lines_flatten]
  · rw [List.map_append, List.filter_append, List.filter_eq_nil_iff.2, List.nil_append, List.map_map]
    · rw [List.filter_eq_self.2]
      · refine List.map_congr_left fun row _ => ?_
        simp only [Function.comp_apply]
        rw [takeWhile_hash (hplain row).2, rowText_strip]
      · intro l hl
        obtain ⟨row, hr, rfl⟩ := List.mem_map.1 hl
        have : ((fun l => strip (List.takeWhile (fun x => decide (x ≠ '#')) l)) ∘ rowText F) row = rowText F row := by
          simp only [Function.comp_apply]
          rw [takeWhile_hash (hplain row).2, rowText_strip]
        rw [decide_eq_true_eq, this]
        exact rowText_ne F row (h row hr)
    · intro l hl
      obtain ⟨l', hl', rfl⟩ := List.mem_map.1 hl
      obtain ⟨l'', -, rfl⟩ := List.mem_map.1 hl'
      rw [show ("# ".toList ++ l'').takeWhile (· ≠ '#') = [] from rfl]
      decide
  · intro l hl
    rcases List.mem_append.1 hl with hl | hl
    · obtain ⟨l', hl', rfl⟩ := List.mem_map.1 hl
      rw [List.mem_append, not_or]
      exact ⟨by decide, header_noNewline _ _ l' hl'⟩
    · obtain ⟨row, -, rfl⟩ := List.mem_map.1 hl
      exact (hplain row).1

theorem allSome_comp {α β γ : Type} (f : α → Option β) (g : γ → α) (h : γ → β) (l : List γ)
    (hf : ∀ x ∈ l, f (g x) = some (h x)) : allSome f (l.map g) = some (l.map h) := by
  induction l with
  | nil => rfl
  | cons x l ih => rw [List.map_cons, allSome, hf x (by simp), ih fun y hy => hf y (by simp [hy])]; rfl

theorem readRows {N : Type} (F : RowNums N) (u : Full N) (h : ∀ row ∈ fullRows F u, row ≠ []) :
    allSome (fun l => allSome F.read (words l)) (dataLines (fullText F u)) = some (fullRows F u) := by
  rw [dataLines_full F u h, allSome_comp _ _ id _ fun row _ => by rw [rowText_words, allSome_map _ _ _ F.read_write]; rfl,
    List.map_id]

/-! ## Tables -/

/-- The tables have the sizes they claim. -/
structure Consistent {N : Type} (u : Full N) : Prop where
  spacing : u.spacing.length = u.nspace ∧ ∀ row ∈ u.spacing, row.length = u.nshift
  shift : u.shift.length = u.nspace ∧ ∀ row ∈ u.shift, row.length = u.nshift
  vals : u.vals.length = u.nspace ∧ ∀ row ∈ u.vals, row.length = u.nshift

theorem padRow_length {N : Type} (F : RowNums N) {n : ℕ} (hn : 0 < n) (x : N) : (padRow F n x).length = n := by
  simp [padRow]; omega

theorem fullRows_length {N : Type} (F : RowNums N) {u : Full N} (hu : Consistent u) (hn : 0 < u.nshift) :
    ∀ row ∈ fullRows F u, row.length = u.nshift := by
  intro row hr
  simp only [fullRows, List.mem_append, List.mem_cons, List.not_mem_nil, or_false] at hr
  rcases hr with (((h | h) | h) | h) | h
  · rcases h with rfl | rfl | rfl | rfl | rfl <;> exact padRow_length F hn _
  · exact hu.spacing.2 row h
  · exact hu.shift.2 row h
  · exact hu.vals.2 row h
  · rw [h]; exact padRow_length F hn _

theorem loadTable_full {N : Type} (F : RowNums N) {u : Full N} (hu : Consistent u) (hn : 0 < u.nshift) :
    loadTable F (fullText F u) =
      if u.nshift = 1 then .ok (.flat (fullRows F u).flatten) else .ok (.table (fullRows F u)) := by
  have hl := fullRows_length F hu hn
  rw [loadTable, readRows F u fun row hr h0 => by have := hl row hr; rw [h0] at this; simp at this; omega]
  simp only
  rw [if_pos fun x hx y hy => by rw [hl x hx, hl y hy]]
  by_cases h1 : u.nshift = 1
  · rw [if_pos (.inr fun x hx => by rw [hl x hx, h1]), if_pos h1]
  · rw [if_neg, if_neg h1]
    rintro (h | h)
    · simp [fullRows] at h
    · have := h (padRow F u.nshift u.minVal) (by simp [fullRows])
      rw [padRow_length F hn] at this
      exact h1 this

theorem collect_full {N : Type} (F : RowNums N) {u : Full N} (hu : Consistent u) :
    collect F (.table (fullRows F u)) = .ok u := by
  have hc : ∀ (l : List (List N)) (i : ℕ) (n : ℕ) (x : N), l[i]? = some (padRow F n x) →
      (Loaded.table l).cell i 0 = .ok x := by
    intro l i n x h
    rw [Loaded.cell]
    simp only [h]
    rfl
  have h0 : (Loaded.table (fullRows F u)).cell 0 0 = .ok (F.ofNat u.nspace) := hc _ _ u.nshift _ rfl
  have h1 : (Loaded.table (fullRows F u)).cell 1 0 = .ok (F.ofNat u.nshift) := hc _ _ u.nshift _ rfl
  have h2 : (Loaded.table (fullRows F u)).cell 2 0 = .ok u.best.1 := hc _ _ u.nshift _ rfl
  have h3 : (Loaded.table (fullRows F u)).cell 3 0 = .ok u.best.2 := hc _ _ u.nshift _ rfl
  have h4 : (Loaded.table (fullRows F u)).cell 4 0 = .ok u.minVal := hc _ _ u.nshift _ rfl
  have hr : fullRows F u = [padRow F u.nshift (F.ofNat u.nspace), padRow F u.nshift (F.ofNat u.nshift),
      padRow F u.nshift u.best.1, padRow F u.nshift u.best.2, padRow F u.nshift u.minVal] ++
      (u.spacing ++ (u.shift ++ (u.vals ++ [padRow F u.nshift (F.ofNat u.flag)]))) := by
    simp [fullRows]
  have h5 : (Loaded.table (fullRows F u)).cell (3 * u.nspace + 5) 0 = .ok (F.ofNat u.flag) := by
    refine hc _ _ u.nshift _ ?_
    have e1 := hu.spacing.1
    have e2 := hu.shift.1
    have e3 := hu.vals.1
    rw [hr, List.getElem?_append_right (by simp), List.getElem?_append_right (by simp; omega),
      List.getElem?_append_right (by simp; omega), List.getElem?_append_right (by simp; omega)]
    simp only [List.length_cons, List.length_nil]
    rw [show 3 * u.nspace + 5 - (0 + 1 + 1 + 1 + 1 + 1) - u.spacing.length - u.shift.length - u.vals.length = 0 by omega]
    rfl
  have drop5 : ∀ (x1 x2 x3 x4 x5 : List N) (l : List (List N)), ([x1, x2, x3, x4, x5] ++ l).drop 5 = l := fun _ _ _ _ _ _ => rfl
  have s1 : ((fullRows F u).drop 5).take u.nspace = u.spacing := by
    rw [hr, drop5, ← hu.spacing.1, List.take_left]
  have s2 : ((fullRows F u).drop (u.nspace + 5)).take u.nspace = u.shift := by
    rw [hr, Nat.add_comm, ← List.drop_drop, drop5, ← hu.spacing.1, List.drop_left, hu.spacing.1, ← hu.shift.1,
      List.take_left]
  have s3 : ((fullRows F u).drop (2 * u.nspace + 5)).take u.nspace = u.vals := by
    rw [hr, show 2 * u.nspace + 5 = 5 + (u.nspace + u.nspace) by omega, ← List.drop_drop, drop5,
      ← List.drop_drop, List.drop_left' hu.spacing.1, List.drop_left' hu.shift.1, ← hu.vals.1, List.take_left]
  rw [collect]
  simp only [h0, h1, h2, h3, h4, h5, Except.bind, F.toNat_ofNat, Loaded.rows, bind, s1, s2, s3, fitInto]
  rw [if_pos hu.spacing]
  simp only
  rw [if_pos hu.shift]

/-! ## Filter and tables -/

theorem fullName_ne {path name sn k : List Char} (hs : sn = stem name) (hk : k ≠ "full".toList) :
    fileName path sn k ≠ fullName path name := by
  subst hs
  unfold fileName fullName
  split_ifs
  · intro h
    have := congrArg (fun l => l.reverse.head?) h
    simp only [List.reverse_append] at this
    exact absurd (Option.some.inj this) (by decide)
  · intro h
    rw [List.append_nil, show "_full.txt".toList = ['_'] ++ "full".toList ++ ".txt".toList from rfl, ← List.append_assoc,
      ← List.append_assoc] at h
    exact hk (List.append_cancel_left (List.append_cancel_right h))

/-- Writing and reading a filter when the list of names that is read contains the names that are written. -/
theorem filter_back {N : Type} (M : Nums N) (ratio : N → N → N) (path : List Char) (f g : Filters.Filter N) (fs : Fs)
    (a b : N) (r : List N) (hb : f.attrs "base".toList = some (a :: b :: r)) (hs : g.savename = f.savename)
    (hg : ∀ k, g.attrs k = none) (hc : ∀ k ∈ f.coeffs, k ∈ g.coeffs)
    (hno : ∀ k ∈ g.coeffs, k ≠ "base".toList → (k ∉ f.coeffs ∨ f.attrs k = none) → fs (fileName path f.savename k) = none) :
    ∃ fs', toFile M path f fs = (.ok (), fs') ∧
      (∀ p, p ≠ fileName path f.savename "base".toList → (∀ k ∈ f.coeffs, p ≠ fileName path f.savename k) → fs' p = fs p) ∧
      ∀ fs'' : Fs, (∀ k ∈ "base".toList :: g.coeffs, fs'' (fileName path f.savename k) = fs' (fileName path f.savename k)) →
      ∃ g', fromFile M ratio path fs'' g = .ok g' ∧ g'.attrs "base".toList = f.attrs "base".toList ∧
        g'.factor = some (ratio a b) ∧ (∀ k ∈ f.coeffs, g'.attrs k = f.attrs k) ∧
        ∀ k, k ≠ "base".toList → k ∉ f.coeffs → g'.attrs k = none := by
  refine ⟨_, by rw [toFile, hb], fun p h1 h2 => ?_, fun fs'' hfs => ?_⟩
  · rw [writeCoeffs_other _ _ _ _ _ _ h2, Function.update_of_ne h1]
  · have hbase : fs'' (fileName path f.savename "base".toList) = some (arrayText M (a :: b :: r)) := by
      rw [hfs _ (by simp), writeCoeffs_file]
      split_ifs
      · rw [hb]; rfl
      · exact Function.update_self ..
    have key : ∀ k ∈ g.coeffs, fs'' (fileName path f.savename k) =
        (if k = "base".toList then some (a :: b :: r) else if k ∈ f.coeffs then f.attrs k else none).map (arrayText M) := by
      intro k hk
      by_cases hkb : k = "base".toList
      · rw [if_pos hkb, hkb, hbase]; rfl
      · rw [if_neg hkb, hfs k (by simp [hk]), writeCoeffs_file, Function.update_of_ne fun h => hkb (fileName_inj h)]
        by_cases hkf : k ∈ f.coeffs
        · rw [if_pos hkf]
          cases ha : f.attrs k with
          | some v => simp [hkf]
          | none => simp [hno k hk hkb (.inr ha)]
        · rw [if_neg (by simp [hkf]), if_neg hkf, hno k hk hkb (.inl hkf)]; rfl
    obtain ⟨g1, hg1, ha⟩ := readCoeffs_ok M path fs''
      (fun k => if k = "base".toList then some (a :: b :: r) else if k ∈ f.coeffs then f.attrs k else none) g.coeffs
      (g.set "base".toList (a :: b :: r)) fun k hk => by
        rw [show (g.set "base".toList (a :: b :: r)).savename = f.savename from hs]; exact key k hk
    have hgb : g1.attrs "base".toList = some (a :: b :: r) := by
      rw [ha, if_pos rfl]
      by_cases hm : "base".toList ∈ g.coeffs
      · rw [if_pos ⟨hm, by simp⟩]
      · rw [if_neg fun h => hm h.1]
        simp [Filters.Filter.set]
    have hother : ∀ k, k ≠ "base".toList → g1.attrs k = if k ∈ f.coeffs then f.attrs k else none := by
      intro k hk
      have hset : (g.set "base".toList (a :: b :: r)).attrs k = none := by
        rw [show (g.set "base".toList (a :: b :: r)).attrs k = g.attrs k from Function.update_of_ne hk _ _, hg]
      rw [ha, if_neg hk, hset]
      by_cases hkf : k ∈ f.coeffs
      · rw [if_pos hkf]
        cases f.attrs k with
        | none => simp
        | some v => rw [if_pos ⟨hc k hkf, by simp⟩]
      · rw [if_neg hkf]; simp
    refine ⟨{ g1 with factor := some (ratio a b) }, ?_, by rw [hb]; exact hgb, rfl, fun k hk => ?_, fun k hk hn => ?_⟩
    · rw [fromFile, hs, hbase]
      simp only
      rw [readArray_text]
      simp only
      rw [hg1]
      simp only [setFactor, hgb]
    · by_cases hkb : k = "base".toList
      · rw [hkb, hb]; exact hgb
      · exact (hother k hkb).trans (if_pos hk)
    · exact (hother k hk).trans (if_neg hn)

/-- Names that are read. -/
def readNames (extra : Option (List (List Char))) : List (List Char) :=
  ["j0".toList, "j1".toList, "sin".toList, "cos".toList] ++ extra.getD []

/-- A filter and its tables that were saved, with at least two values of the shift, are read back. -/
theorem C42_files_partial {N : Type} (M : Nums N) (F : RowNums N) (ratio : N → N → N) (path name : List Char)
    (f : Filters.Filter N) (u : Full N) (fs : Fs) (extra : Option (List (List Char))) (a b : N) (r : List N)
    (hb : f.attrs "base".toList = some (a :: b :: r)) (hs : f.savename = stem name)
    (hc : ∀ k ∈ f.coeffs, k ∈ readNames extra) (hfull : "full".toList ∉ readNames extra)
    (hno : ∀ k ∈ readNames extra, k ≠ "base".toList → (k ∉ f.coeffs ∨ f.attrs k = none) →
      fs (fileName path f.savename k) = none)
    (hu : Consistent u) (h2 : 2 ≤ u.nshift) :
    ∃ fs' g, saveFilter M F path name f (some u) fs = (.ok (), fs') ∧
      Fdesign.loadFilter M F ratio path name extra true fs' = .ok (g, some u) ∧
      Fdesign.loadFilter M F ratio path name extra false fs' = .ok (g, none) ∧
      g.attrs "base".toList = f.attrs "base".toList ∧ g.factor = some (ratio a b) ∧
      (∀ k ∈ f.coeffs, g.attrs k = f.attrs k) ∧ ∀ k, k ≠ "base".toList → k ∉ f.coeffs → g.attrs k = none := by
  obtain ⟨fs1, h1, -, hback⟩ := filter_back M ratio path f (Filters.Filter.init (stem name) none extra) fs a b r hb hs.symm
    (fun _ => rfl) hc hno
  obtain ⟨g, hg, hg'⟩ := hback (Function.update fs1 (fullName path name) (some (fullText F u))) fun k hk => by
    refine Function.update_of_ne (fullName_ne hs ?_) _ _
    rintro rfl
    rcases List.mem_cons.1 hk with h | h
    · exact absurd h (by decide)
    · exact hfull h
  refine ⟨Function.update fs1 (fullName path name) (some (fullText F u)), g, ?_, ?_, ?_, hg'⟩
  · rw [saveFilter, h1]
    simp only
    rw [if_neg]
    rintro (h | ⟨row, hr, hl⟩)
    · omega
    · exact hl (fullRows_length F hu (by omega) row hr)
  · rw [Fdesign.loadFilter, hg]
    simp only [bind, Except.bind, if_pos, Function.update_self]
    rw [loadTable_full F hu (by omega), if_neg (by omega)]
    simp only
    rw [collect_full F hu]
  · rw [Fdesign.loadFilter, hg]
    rfl

/-- A design with one value of the shift is saved but cannot be read. -/
theorem C42_single_violated {N : Type} (M : Nums N) (F : RowNums N) (ratio : N → N → N) (path name : List Char)
    (f : Filters.Filter N) (u : Full N) (fs : Fs) (a b : N) (r : List N)
    (hb : f.attrs "base".toList = some (a :: b :: r)) (hs : f.savename = stem name)
    (hc : ∀ k ∈ f.coeffs, k ∈ readNames none)
    (hno : ∀ k ∈ readNames none, (k ∉ f.coeffs ∨ f.attrs k = none) → fs (fileName path f.savename k) = none)
    (hu : Consistent u) (h1 : u.nshift = 1) :
    ∃ fs', saveFilter M F path name f (some u) fs = (.ok (), fs') ∧
      Fdesign.loadFilter M F ratio path name none true fs' = .error .index := by
  obtain ⟨fs1, hf1, -, hback⟩ := filter_back M ratio path f (Filters.Filter.init (stem name) none none) fs a b r hb hs.symm
    (fun _ => rfl) hc fun k hk _ => hno k hk
  obtain ⟨g, hg, hg'⟩ := hback (Function.update fs1 (fullName path name) (some (fullText F u))) fun k hk => by
    refine Function.update_of_ne (fullName_ne hs ?_) _ _
    rintro rfl
    rcases List.mem_cons.1 hk with h | h
    · exact absurd h (by decide)
    · exact absurd (show "full".toList ∈ readNames none from h) (by decide)
  refine ⟨Function.update fs1 (fullName path name) (some (fullText F u)), ?_, ?_⟩
  · rw [saveFilter, hf1]
    simp only
    rw [if_neg]
    rintro (h | ⟨row, hr, hl⟩)
    · omega
    · exact hl (fullRows_length F hu (by omega) row hr)
  · rw [Fdesign.loadFilter, hg]
    simp only [bind, Except.bind, if_pos, Function.update_self]
    rw [loadTable_full F hu (by omega), if_pos h1]
    rfl

/-- A filter saved without tables where there are tables of an older one of that name is read back with those. -/
theorem C42_stale_violated {N : Type} (M : Nums N) (F : RowNums N) (ratio : N → N → N) (path name : List Char)
    (f : Filters.Filter N) (u : Full N) (fs : Fs) (a b : N) (r : List N)
    (hb : f.attrs "base".toList = some (a :: b :: r)) (hs : f.savename = stem name)
    (hc : ∀ k ∈ f.coeffs, k ∈ readNames none)
    (hno : ∀ k ∈ readNames none, (k ∉ f.coeffs ∨ f.attrs k = none) → fs (fileName path f.savename k) = none)
    (hu : Consistent u) (h2 : 2 ≤ u.nshift) (hold : fs (fullName path name) = some (fullText F u)) :
    ∃ fs' g, saveFilter M F path name f none fs = (.ok (), fs') ∧
      Fdesign.loadFilter M F ratio path name none true fs' = .ok (g, some u) ∧ ∀ k ∈ f.coeffs, g.attrs k = f.attrs k := by
  obtain ⟨fs1, hf1, hkeep, hback⟩ := filter_back M ratio path f (Filters.Filter.init (stem name) none none) fs a b r hb
    hs.symm (fun _ => rfl) hc fun k hk _ => hno k hk
  obtain ⟨g, hg, hg1, hg2, hg3, hg4⟩ := hback fs1 fun _ _ => rfl
  have hfile : fs1 (fullName path name) = some (fullText F u) := by
    rw [hkeep _ (fullName_ne hs (by decide)).symm fun k hk => (fullName_ne hs ?_).symm, hold]
    rintro rfl
    exact absurd (hc _ hk) (by decide)
  refine ⟨fs1, g, by rw [saveFilter, hf1], ?_, hg3⟩
  rw [Fdesign.loadFilter, hg]
  simp only [bind, Except.bind, if_pos, hfile]
  rw [loadTable_full F hu (by omega), if_neg (by omega)]
  simp only
  rw [collect_full F hu]

/-- Without tables only the filter is returned. -/
theorem C42_files_absent {N : Type} (M : Nums N) (F : RowNums N) (ratio : N → N → N) (path name : List Char)
    (extra : Option (List (List Char))) (fs : Fs) (h : fs (fullName path name) = none) :
    Fdesign.loadFilter M F ratio path name extra true fs = Fdesign.loadFilter M F ratio path name extra false fs := by
  unfold Fdesign.loadFilter
  simp only [if_pos, h]
  rfl

/-- There are such numbers. -/
def natRows : RowNums ℕ where
  write := digits
  read := readNat
  plain n c hc := ⟨((digits_token n).2 c hc).1, ((digits_token n).2 c hc).2.2⟩
  nonempty := digits_ne
  read_write := readNat_digits
  ofNat := id
  toNat n := .ok n
  toNat_ofNat _ := rfl

/-- Tables of two spacings and two shifts. -/
example {N : Type} (F : RowNums N) (x y z w : N) :
    loadTable F (fullText F ⟨(x, y), z, 2, 2, [[x, x], [w, w]], [[y, z], [y, z]], [[z, w], [w, w]], 0⟩) =
      .ok (.table (fullRows F ⟨(x, y), z, 2, 2, [[x, x], [w, w]], [[y, z], [y, z]], [[z, w], [w, w]], 0⟩)) := by
  rw [loadTable_full F ⟨by simp, by simp, by simp⟩ (by simp), if_neg (by simp)]

end Verif.Props
