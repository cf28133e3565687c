import Verif.Model.Filters
import Verif.Lemmas.IoText
import Verif.Props.C31_Io

/-!
# C33: filter files round-trip
-/

namespace Verif.Props
open Verif.Filters Verif.Io Verif.Json

/-! ## Texts -/

theorem words_single {w : List Char} (h0 : w ≠ []) (h : ∀ c ∈ w, blank c = false) : words w = [w] := by
  induction w with
  | nil => exact absurd rfl h0
  | cons c w ih =>
    rw [words.eq_def]
    simp only
    rw [if_neg (by simp [h c (by simp)])]
    cases w with
    | nil => rfl
    | cons d w =>
      simp only
      rw [if_neg (by simp [h d (by simp)]), ih (by simp) fun x hx => h x (by simp at hx ⊢; tauto)]

theorem words_cons {w : List Char} (h0 : w ≠ []) (h : ∀ c ∈ w, blank c = false) (t : List Char) :
    words (w ++ '\n' :: t) = w :: words t := by
  have hn : words ('\n' :: t) = words t := by
    rw [words.eq_def]; simp only; rw [if_pos (by decide)]
  induction w with
  | nil => exact absurd rfl h0
  | cons c w ih =>
    rw [List.cons_append, words.eq_def]
    simp only
    rw [if_neg (by simp [h c (by simp)])]
    cases w with
    | nil =>
      simp only [List.nil_append]
      rw [if_pos (by decide), hn]
    | cons d w =>
      have := ih (by simp) fun x hx => h x (by simp at hx ⊢; tauto)
      simp only [List.cons_append] at this ⊢
      rw [if_neg (by simp [h d (by simp)]), this]

/-- The array that was written is read. -/
theorem readArray_text {N : Type} (M : Nums N) (l : List N) : readArray M (arrayText M l) = .ok l := by
  have hw : words (arrayText M l) = l.map M.write := by
    induction l with
    | nil => rfl
    | cons x l ih =>
      cases l with
      | nil =>
        rw [arrayText]
        exact words_single (M.nonempty x) fun c hc => ((write_token M x).2 c hc).1
      | cons y l =>
        rw [arrayText, List.append_assoc, List.singleton_append,
          words_cons (M.nonempty x) fun c hc => ((write_token M x).2 c hc).1, ih]
        rfl
  rw [readArray, hw, allSome_map _ _ _ M.read_write]

/-! ## Names -/

theorem fileName_inj {path name k k' : List Char} (h : fileName path name k = fileName path name k') : k = k' := by
  unfold fileName at h
  exact List.append_cancel_left (List.append_cancel_right h)

theorem cut_last {a b k k' : List Char} (hk : '_' ∉ k) (hk' : '_' ∉ k') (h : a ++ '_' :: k = b ++ '_' :: k') :
    a = b ∧ k = k' := by
  rcases List.append_eq_append_iff.1 h with ⟨c, hb, hc⟩ | ⟨c, ha, hc⟩
  · cases c with
    | nil => simp at hb hc; exact ⟨hb.symm, hc⟩
    | cons x c =>
      simp only [List.cons_append, List.cons.injEq] at hc
      exact absurd (by rw [hc.2]; simp) hk
  · cases c with
    | nil => simp at ha hc; exact ⟨ha, hc.symm⟩
    | cons x c =>
      simp only [List.cons_append, List.cons.injEq] at hc
      exact absurd (by rw [hc.2]; simp) hk'

theorem fileName_separate {path a b k k' : List Char} (hk : '_' ∉ k) (hk' : '_' ∉ k')
    (h : fileName path a k = fileName path b k') : a = b := by
  unfold fileName at h
  have h := List.append_cancel_right h
  simp only [List.append_assoc, List.singleton_append] at h
  have h := (List.cons.inj (List.append_cancel_left h)).2
  exact (cut_last hk hk' h).1

/-! ## Writing and reading -/

/-- Files after the coefficients have been written. -/
theorem writeCoeffs_file {N : Type} (M : Nums N) (path : List Char) (f : Filter N) (ks : List (List Char)) (fs : Fs)
    (k : List Char) :
    writeCoeffs M path f ks fs (fileName path f.savename k) =
      if k ∈ ks ∧ f.attrs k ≠ none then (f.attrs k).map (arrayText M) else fs (fileName path f.savename k) := by
  induction ks generalizing fs with
  | nil => simp [writeCoeffs]
  | cons j ks ih =>
    rw [writeCoeffs]
    cases hj : f.attrs j with
    | none =>
      simp only
      rw [ih]
      by_cases hk : k = j
      · subst hk; simp [hj]
      · simp [hk]
    | some v =>
      simp only
      rw [ih]
      by_cases hk : k = j
      · subst hk; simp [hj]
      · have : fileName path f.savename k ≠ fileName path f.savename j := fun h => hk (fileName_inj h)
        simp [hk, Function.update_of_ne this]

/-- Other files are not touched. -/
theorem writeCoeffs_other {N : Type} (M : Nums N) (path : List Char) (f : Filter N) (ks : List (List Char)) (fs : Fs)
    (p : List Char) (hp : ∀ k ∈ ks, p ≠ fileName path f.savename k) : writeCoeffs M path f ks fs p = fs p := by
  induction ks generalizing fs with
  | nil => rfl
  | cons j ks ih =>
    rw [writeCoeffs]
    cases f.attrs j
    · exact ih fs fun k hk => hp k (by simp [hk])
    · simp only
      rw [ih _ fun k hk => hp k (by simp [hk]), Function.update_of_ne (hp j (by simp))]

/-- A filter after its coefficients have been read from files that hold arrays. -/
theorem readCoeffs_ok {N : Type} (M : Nums N) (path : List Char) (fs : Fs) (c : List Char → Option (List N))
    (ks : List (List Char)) (f : Filter N)
    (h : ∀ k ∈ ks, fs (fileName path f.savename k) = (c k).map (arrayText M)) :
    ∃ g, readCoeffs M path fs ks f = .ok g ∧
      ∀ k, g.attrs k = if k ∈ ks ∧ c k ≠ none then c k else f.attrs k := by
  induction ks generalizing f with
  | nil => exact ⟨f, rfl, by simp⟩
  | cons j ks ih =>
    rw [readCoeffs, h j (by simp)]
    cases hj : c j with
    | none =>
      simp only [Option.map_none]
      obtain ⟨g, hg, ha⟩ := ih f fun k hk => h k (by simp [hk])
      refine ⟨g, hg, fun k => ?_⟩
      rw [ha]
      by_cases hk : k = j
      · subst hk; simp [hj]
      · simp [hk]
    | some v =>
      simp only [Option.map_some]
      rw [readArray_text]
      simp only
      obtain ⟨g, hg, ha⟩ := ih (f.set j v) fun k hk => h k (by simp [hk])
      refine ⟨g, hg, fun k => ?_⟩
      rw [ha]
      by_cases hk : k = j
      · subst hk
        simp [hj, Filter.set]
      · simp [hk, Filter.set]

/-- What is read back in general: the coefficients that were saved, and those of older files of that name. -/
theorem C33_files {N : Type} (M : Nums N) (ratio : N → N → N) (path : List Char) (f g : Filter N) (fs : Fs)
    (old : List Char → Option (List N)) (a b : N) (r : List N) (hb : f.attrs "base".toList = some (a :: b :: r))
    (hs : g.savename = f.savename) (hc : g.coeffs = f.coeffs)
    (ho : ∀ k ∈ f.coeffs, fs (fileName path f.savename k) = (old k).map (arrayText M)) :
    ∃ fs' g', toFile M path f fs = (.ok (), fs') ∧ fromFile M ratio path fs' g = .ok g' ∧
      g'.attrs "base".toList = some (a :: b :: r) ∧ g'.factor = some (ratio a b) ∧
      ∀ k, k ≠ "base".toList → g'.attrs k =
        if k ∈ f.coeffs then ((f.attrs k).or (old k)).or (g.attrs k) else g.attrs k := by
  have key : ∀ k, k ∈ f.coeffs → writeCoeffs M path f f.coeffs
      (Function.update fs (fileName path f.savename "base".toList) (some (arrayText M (a :: b :: r))))
        (fileName path f.savename k) = ((f.attrs k).or (old k)).map (arrayText M) := by
    intro k hk
    rw [writeCoeffs_file]
    cases hf : f.attrs k with
    | some v => simp [hk]
    | none =>
      have hne : k ≠ "base".toList := by rintro rfl; rw [hb] at hf; cases hf
      rw [if_neg (by simp), Function.update_of_ne fun h => hne (fileName_inj h), ho k hk]
      rfl
  have hbase : writeCoeffs M path f f.coeffs
      (Function.update fs (fileName path f.savename "base".toList) (some (arrayText M (a :: b :: r))))
        (fileName path f.savename "base".toList) = some (arrayText M (a :: b :: r)) := by
    rw [writeCoeffs_file]
    split_ifs
    · rw [hb]; rfl
    · exact Function.update_self ..
  refine ⟨writeCoeffs M path f f.coeffs
      (Function.update fs (fileName path f.savename "base".toList) (some (arrayText M (a :: b :: r)))), ?_⟩
  generalize hfs : writeCoeffs M path f f.coeffs
      (Function.update fs (fileName path f.savename "base".toList) (some (arrayText M (a :: b :: r)))) = fs' at key hbase
  obtain ⟨g1, hg1, ha⟩ := readCoeffs_ok M path fs' (fun k => (f.attrs k).or (old k)) f.coeffs
    (g.set "base".toList (a :: b :: r)) fun k hk => by
      rw [show (g.set "base".toList (a :: b :: r)).savename = f.savename from hs]; exact key k hk
  have hgb : g1.attrs "base".toList = some (a :: b :: r) := by
    rw [ha]
    split_ifs
    · rw [hb]; rfl
    · simp [Filter.set]
  refine ⟨{ g1 with factor := some (ratio a b) }, ?_, ?_, hgb, rfl, fun k hk => ?_⟩
  · rw [toFile, hb]
    simp only [hfs]
  · rw [fromFile, hs, hbase]
    simp only
    rw [readArray_text]
    simp only
    rw [hc, hg1]
    simp only [setFactor, hgb]
  · show g1.attrs k = _
    rw [ha]
    have hset : (g.set "base".toList (a :: b :: r)).attrs k = g.attrs k := Function.update_of_ne hk _ _
    rw [hset]
    by_cases hm : k ∈ f.coeffs
    · rw [if_pos hm]
      cases h : (f.attrs k).or (old k) with
      | none => simp
      | some v => simp [hm]
    · rw [if_neg (by simp [hm]), if_neg hm]

/-- A filter saved where no older files of that name are is read back: base, coefficients, nothing else, and the factor
of the base. -/
theorem C33_partial {N : Type} (M : Nums N) (ratio : N → N → N) (path : List Char) (f : Filter N) (fs : Fs)
    (name : List Char) (extra : List (List Char)) (a b : N) (r : List N)
    (hb : f.attrs "base".toList = some (a :: b :: r))
    (hc : f.coeffs = ["j0".toList, "j1".toList, "sin".toList, "cos".toList] ++ extra)
    (hno : ∀ k ∈ f.coeffs, f.attrs k = none → fs (fileName path f.savename k) = none) :
    ∃ fs' g, toFile M path f fs = (.ok (), fs') ∧
      fromFile M ratio path fs' (Filter.init name (some f.savename) (some extra)) = .ok g ∧
      g.attrs "base".toList = f.attrs "base".toList ∧ g.factor = some (ratio a b) ∧
      (∀ k ∈ f.coeffs, g.attrs k = f.attrs k) ∧
      ∀ k, k ≠ "base".toList → k ∉ f.coeffs → g.attrs k = none := by
  obtain ⟨fs', hto⟩ : ∃ fs', toFile M path f fs = (.ok (), fs') := by rw [toFile, hb]; exact ⟨_, rfl⟩
  -- files of coefficients that are overwritten do not count
  let fs0 : Fs := fun p => if ∃ k ∈ f.coeffs, p = fileName path f.savename k then none else fs p
  have hsame : toFile M path f fs0 = (.ok (), fs') := by
    rw [← hto, toFile, toFile, hb]
    simp only
    congr 1
    funext p
    by_cases hp : ∃ k ∈ f.coeffs, p = fileName path f.savename k
    · obtain ⟨k, hk, rfl⟩ := hp
      rw [writeCoeffs_file, writeCoeffs_file]
      split_ifs with h
      · rfl
      · have hn : f.attrs k = none := by_contra fun h' => h ⟨hk, h'⟩
        have hne : k ≠ "base".toList := by rintro rfl; rw [hb] at hn; cases hn
        rw [Function.update_of_ne fun h => hne (fileName_inj h), Function.update_of_ne fun h => hne (fileName_inj h),
          hno k hk hn]
        simp only [fs0]
        rw [if_pos ⟨k, hk, rfl⟩]
    · have hp' : ∀ k ∈ f.coeffs, p ≠ fileName path f.savename k := fun k hk h => hp ⟨k, hk, h⟩
      rw [writeCoeffs_other _ _ _ _ _ _ hp', writeCoeffs_other _ _ _ _ _ _ hp']
      by_cases hq : p = fileName path f.savename "base".toList
      · subst hq; rw [Function.update_self, Function.update_self]
      · rw [Function.update_of_ne hq, Function.update_of_ne hq]
        simp only [fs0]
        rw [if_neg hp]
  obtain ⟨fs'', g, h1, h2, h3, h4, h5⟩ := C33_files M ratio path f (Filter.init name (some f.savename) (some extra)) fs0
    (fun _ => none) a b r hb rfl (by rw [hc]; rfl) fun k hk => by
      simp only [fs0, Option.map_none]
      rw [if_pos ⟨k, hk, rfl⟩]
  rw [hsame] at h1
  obtain rfl : fs' = fs'' := (Prod.mk.injEq .. ▸ h1).2
  refine ⟨fs', g, hto, h2, by rw [h3, hb], h4, fun k hk => ?_, fun k hk hn => ?_⟩
  · by_cases hkb : k = "base".toList
    · subst hkb; rw [h3, hb]
    · rw [h5 k hkb, if_pos hk]
      cases f.attrs k <;> rfl
  · rw [h5 k hk, if_neg hn]
    rfl

/-- An older file makes a coefficient appear that was not saved. -/
theorem C33_violated {N : Type} (M : Nums N) (ratio : N → N → N) (path : List Char) (f : Filter N)
    (name : List Char) (a b : N) (r v : List N) (hb : f.attrs "base".toList = some (a :: b :: r))
    (hc : f.coeffs = ["j0".toList, "j1".toList, "sin".toList, "cos".toList]) (hn : f.attrs "j1".toList = none) :
    ∃ fs fs' g, toFile M path f fs = (.ok (), fs') ∧
      fromFile M ratio path fs' (Filter.init name (some f.savename) none) = .ok g ∧
      g.attrs "j1".toList = some v := by
  let old : List Char → Option (List N) := fun k => if k = "j1".toList then some v else none
  let fs : Fs := fun p => if p = fileName path f.savename "j1".toList then some (arrayText M v) else none
  obtain ⟨fs', g, h1, h2, -, -, h5⟩ := C33_files M ratio path f (Filter.init name (some f.savename) none) fs old a b r hb
    rfl (by rw [hc]; rfl) fun k _ => by
      by_cases hk : k = "j1".toList
      · simp [fs, old, hk]
      · have : fileName path f.savename k ≠ fileName path f.savename "j1".toList := fun h => hk (fileName_inj h)
        simp only [fs, old, if_neg hk, if_neg this, Option.map_none]
  refine ⟨fs, fs', g, h1, h2, ?_⟩
  rw [h5 _ (by decide), if_pos (by rw [hc]; decide), hn]
  simp [old]

/-- A base of fewer than two points is saved but cannot be read. -/
theorem C33_short_violated {N : Type} (M : Nums N) (ratio : N → N → N) (path : List Char) (f : Filter N) (fs : Fs)
    (name : List Char) (l : List N) (hl : l.length < 2) (hb : f.attrs "base".toList = some l) (hc : f.coeffs = []) :
    ∃ fs', toFile M path f fs = (.ok (), fs') ∧
      fromFile M ratio path fs' { (Filter.init name (some f.savename) none : Filter N) with coeffs := [] } =
        .error .index := by
  refine ⟨Function.update fs (fileName path f.savename "base".toList) (some (arrayText M l)), ?_, ?_⟩
  · rw [toFile, hb]
    simp only [hc, writeCoeffs]
  · rw [fromFile]
    simp only [Filter.init, Option.getD_some, Function.update_self]
    rw [readArray_text]
    simp only [readCoeffs, setFactor, Filter.set, Function.update_self]
    match l, hl with
    | [], _ => rfl
    | [x], _ => rfl

/-- Without the file of the base nothing is read. -/
theorem C33_missing {N : Type} (M : Nums N) (ratio : N → N → N) (path : List Char) (f : Filter N) (fs : Fs)
    (h : fs (fileName path f.savename "base".toList) = none) : fromFile M ratio path fs f = .error .notFound := by
  rw [fromFile, h]

theorem readCoeffs_congr {N : Type} (M : Nums N) (path : List Char) (fs fs' : Fs) (ks : List (List Char)) (f : Filter N)
    (h : ∀ k ∈ ks, fs (fileName path f.savename k) = fs' (fileName path f.savename k)) :
    readCoeffs M path fs ks f = readCoeffs M path fs' ks f := by
  induction ks generalizing f with
  | nil => rfl
  | cons k ks ih =>
    rw [readCoeffs, readCoeffs, h k (by simp)]
    split
    · exact ih f fun j hj => h j (by simp [hj])
    · split
      · rfl
      · exact ih _ fun j hj => h j (by simp [hj])

/-- Filters with different names do not interfere, if the names of their coefficients have no underscores. -/
theorem C33_separate {N : Type} (M : Nums N) (ratio : N → N → N) (path : List Char) (f g : Filter N) (fs : Fs)
    (hs : f.savename ≠ g.savename) (hf : ∀ k ∈ f.coeffs, '_' ∉ k) (hg : ∀ k ∈ g.coeffs, '_' ∉ k) :
    fromFile M ratio path (toFile M path f fs).2 g = fromFile M ratio path fs g := by
  have hfile : ∀ k, '_' ∉ k → (toFile M path f fs).2 (fileName path g.savename k) = fs (fileName path g.savename k) := by
    intro k hk
    have hb : fileName path g.savename k ≠ fileName path f.savename "base".toList :=
      fun h => hs (fileName_separate hk (by decide) h).symm
    rw [toFile]
    split
    · exact Function.update_of_ne hb _ _
    · simp only
      rw [writeCoeffs_other _ _ _ _ _ _ fun j hj h => hs (fileName_separate hk (hf j hj) h).symm,
        Function.update_of_ne hb]
  rw [fromFile, fromFile, hfile _ (by decide)]
  split
  · rfl
  · split
    · rfl
    · rw [readCoeffs_congr M path _ fs _ (g.set _ _) fun k hk => hfile k (hg k hk)]

/-- With underscores they do. -/
theorem C33_separate_violated (path : List Char) :
    fileName path "a".toList "b_j0".toList = fileName path "a_b".toList "j0".toList := by
  simp [fileName]

/-! ## A concrete case -/

/-- A filter with one coefficient. -/
def demoFilter : Filter ℕ := ((Filter.init "x".toList none none).set "base".toList [2, 6]).set "j0".toList [70, 8]

/-- It is read back, and its other coefficients stay away. -/
example : ∃ fs' g, toFile demoNums.toNums "/d".toList demoFilter (fun _ => none) = (.ok (), fs') ∧
    fromFile demoNums.toNums (fun a b => b / a) "/d".toList fs' (Filter.init "x".toList none none) = .ok g ∧
    g.attrs "j0".toList = some [70, 8] ∧ g.attrs "j1".toList = none ∧ g.factor = some 3 := by
  have hbase : demoFilter.attrs "base".toList = some [2, 6] := by decide
  obtain ⟨fs', g, h1, h2, -, h4, h5, -⟩ := C33_partial demoNums.toNums (fun a b => b / a) "/d".toList demoFilter
    (fun _ => none) "x".toList [] 2 6 [] hbase rfl fun _ _ _ => rfl
  refine ⟨fs', g, h1, h2, ?_, ?_, h4⟩
  · rw [h5 _ (by decide)]; decide
  · rw [h5 _ (by decide)]; decide

/-- The text of an array. -/
example : arrayText demoNums.toNums [2, 60] = "+2\n+60".toList := by decide

end Verif.Props
