import Verif.Props.C42_Fdesign
import Mathlib.Data.EReal.Basic

/-!
# C42: filter design: rating and search
-/

namespace Verif.Props
open Verif.Fdesign Verif.Py

/-! ## One transform -/

theorem badIndices_eq (error : ℝ) (c f : List ℂ) (q : ℕ → Bool)
    (h : ∀ i < c.length, Bad error (c.getD i 0) (f.getD i 0) ↔ q i = true) :
    badIndices error c f = (List.range c.length).filter q := by
  classical
  rw [badIndices]
  refine List.filter_congr fun i hi => ?_
  have := h i (List.mem_range.1 hi)
  cases hq : q i <;> simp [hq] at this ⊢ <;> exact this

theorem mem_badIndices {error : ℝ} {c f : List ℂ} {i : ℕ} :
    i ∈ badIndices error c f ↔ i < c.length ∧ Bad error (c.getD i 0) (f.getD i 0) := by
  classical
  simp [badIndices]

theorem badIndices_sorted (error : ℝ) (c f : List ℂ) : (badIndices error c f).Pairwise (· < ·) := by
  classical
  exact List.Pairwise.filter _ List.pairwise_lt_range

/-- A consistent failure: the values before `p` are accurate and the others are not.  The filter is rated at the last
accurate value. -/
theorem C42_criterion (error : ℝ) (c f : List ℂ) (p : ℕ) (hp : p ≤ c.length) (hz : ∃ x ∈ c, x ≠ 0)
    (h : ∀ i < c.length, Bad error (c.getD i 0) (f.getD i 0) ↔ p ≤ i) : stopIndex error c f = p - 1 := by
  have hb : badIndices error c f = List.range' p (c.length - p) := by
    rw [badIndices_eq error c f (fun i => decide (p ≤ i)) (by simpa using h)]
    obtain ⟨m, hm⟩ := Nat.exists_eq_add_of_le hp
    rw [hm, show p + m - p = m by omega, List.range_add, List.filter_append, List.filter_eq_nil_iff.2 (by simp),
      List.nil_append, List.filter_eq_self.2 (by simp), List.range'_eq_map_range]
  rw [stopIndex, if_neg (by push Not; exact hz), hb]
  cases hm : c.length - p with
  | zero => simp only [List.range'_zero]; omega
  | succ m =>
    simp only [List.range'_succ]
    split_ifs with h4
    · have : 4 ≤ m := by simpa using h4
      rw [← List.range'_succ, List.getD_eq_getElem?_getD, List.getElem?_range' (by omega)]
      simp
    · rfl

/-- All values accurate: the last one counts. -/
theorem C42_criterion_all (error : ℝ) (c f : List ℂ) (hz : ∃ x ∈ c, x ≠ 0)
    (h : ∀ i < c.length, ¬ Bad error (c.getD i 0) (f.getD i 0)) : stopIndex error c f = c.length - 1 :=
  C42_criterion error c f c.length le_rfl hz fun i hi => iff_of_false (h i hi) (by omega)

/-- A filter that gives only zeros is useless. -/
theorem C42_criterion_zero (error : ℝ) (c f : List ℂ) (hz : ∀ x ∈ c, x = 0) : stopIndex error c f = 0 := by
  rw [stopIndex, if_pos hz]

/-- Up to four failures: the value before the first one counts, all values up to it are accurate. -/
theorem C42_few (error : ℝ) (c f : List ℂ) (hz : ∃ x ∈ c, x ≠ 0) (h0 : badIndices error c f ≠ [])
    (h4 : (badIndices error c f).length ≤ 4) :
    ∃ b, b < c.length ∧ Bad error (c.getD b 0) (f.getD b 0) ∧ (∀ i < b, ¬ Bad error (c.getD i 0) (f.getD i 0)) ∧
      stopIndex error c f = b - 1 := by
  cases hb : badIndices error c f with
  | nil => exact absurd hb h0
  | cons b bs =>
    have hm := mem_badIndices.1 (hb ▸ List.mem_cons_self : b ∈ badIndices error c f)
    have hs := badIndices_sorted error c f
    rw [hb] at hs
    refine ⟨b, hm.1, hm.2, fun i hi hbad => ?_, ?_⟩
    · have : i ∈ badIndices error c f := mem_badIndices.2 ⟨by omega, hbad⟩
      rw [hb] at this
      rcases List.mem_cons.1 this with rfl | h
      · omega
      · have := List.rel_of_pairwise_cons hs h
        omega
    · rw [stopIndex, if_neg (by push Not; exact hz), hb]
      simp only
      rw [if_neg (by rw [hb] at h4; omega)]

/-- In general: at most four of the values up to the rated one are inaccurate. -/
theorem C42_guarantee (error : ℝ) (c f : List ℂ) (h : 0 < stopIndex error c f) :
    stopIndex error c f < c.length ∧
      ((badIndices error c f).filter fun i => decide (i ≤ stopIndex error c f)).length ≤ 4 := by
  have hz : ∃ x ∈ c, x ≠ 0 := by
    by_contra hz
    push Not at hz
    rw [C42_criterion_zero error c f hz] at h
    omega
  have hc : c ≠ [] := by rintro rfl; simp at hz
  have hlen : 0 < c.length := List.length_pos_iff.2 hc
  have hs := badIndices_sorted error c f
  have hmem : ∀ i ∈ badIndices error c f, i < c.length := fun i hi => (mem_badIndices.1 hi).1
  have he : stopIndex error c f = match badIndices error c f with
    | [] => c.length - 1
    | b :: bs => if 4 < (b :: bs).length then (b :: bs).getD 4 0 - 5 else b - 1 := by
    rw [stopIndex, if_neg (by push Not; exact hz)]
    cases badIndices error c f <;> rfl
  revert he h
  generalize stopIndex error c f = s
  intro h he
  cases hb : badIndices error c f with
  | nil =>
    rw [hb] at he
    simp only at he
    exact ⟨by omega, by simp⟩
  | cons b bs =>
    rw [hb] at he hs hmem
    simp only at he
    split_ifs at he with h4
    · obtain ⟨x, hx⟩ : ∃ x, (b :: bs)[4]? = some x := ⟨_, List.getElem?_eq_getElem h4⟩
      rw [List.getD_eq_getElem?_getD, hx, Option.getD_some] at he
      have hxm : x < c.length := hmem x (List.mem_of_getElem? hx)
      refine ⟨by omega, ?_⟩
      rw [← List.take_append_drop 4 (b :: bs), List.filter_append, List.length_append]
      have h2 : ((b :: bs).drop 4).filter (fun i => decide (i ≤ s)) = [] := by
        rw [List.filter_eq_nil_iff]
        intro i hi
        have : x ≤ i := by
          obtain ⟨k, hk⟩ := List.mem_iff_getElem?.1 hi
          rw [List.getElem?_drop] at hk
          rcases Nat.eq_zero_or_pos k with rfl | hk0
          · rw [hx] at hk; simp at hk; omega
          · obtain ⟨h1, e1⟩ := List.getElem?_eq_some_iff.1 hx
            obtain ⟨h2, e2⟩ := List.getElem?_eq_some_iff.1 hk
            have := List.pairwise_iff_getElem.1 hs 4 (4 + k) h1 h2 (by omega)
            omega
        simp; omega
      rw [h2, List.length_nil, add_zero]
      exact (List.length_filter_le _ _).trans (by simp)
    · have hbm := hmem b (by simp)
      refine ⟨by omega, ?_⟩
      exact (List.length_filter_le _ _).trans (by omega)

theorem stopIndex_lt (error : ℝ) (c f : List ℂ) (h : c ≠ []) : stopIndex error c f < c.length := by
  rcases Nat.eq_zero_or_pos (stopIndex error c f) with h0 | h0
  · rw [h0]; exact List.length_pos_iff.2 h
  · exact (C42_guarantee error c f h0).1

/-- Values that are right except at given places. -/
noncomputable def withFailures (n : ℕ) (B : List ℕ) : List ℂ := (List.range n).map fun i => if i ∈ B then 2 else 1

theorem bad_withFailures (n : ℕ) (B : List ℕ) (i : ℕ) (hi : i < n) :
    Bad (1 / 2) ((withFailures n B).getD i 0) ((List.replicate n (1 : ℂ)).getD i 0) ↔ decide (i ∈ B) = true := by
  have h1 : (List.replicate n (1 : ℂ)).getD i 0 = 1 := by
    rw [List.getD_eq_getElem?_getD, List.getElem?_replicate, if_pos hi]; rfl
  have h2 : (withFailures n B).getD i 0 = if i ∈ B then 2 else 1 := by
    rw [withFailures, List.getD_eq_getElem?_getD, List.getElem?_map, List.getElem?_range hi]; rfl
  rw [h1, h2, Bad, if_neg one_ne_zero]
  by_cases h : i ∈ B
  · simp [h]; norm_num
  · simp [h]

theorem stop_withFailures (n : ℕ) (hn : 0 < n) (B : List ℕ) :
    stopIndex (1 / 2) (withFailures n B) (List.replicate n 1) =
      match (List.range n).filter fun i => decide (i ∈ B) with
      | [] => n - 1
      | b :: bs => if 4 < (b :: bs).length then (b :: bs).getD 4 0 - 5 else b - 1 := by
  have hl : (withFailures n B).length = n := by simp [withFailures]
  have hz : ¬ ∀ x ∈ withFailures n B, x = 0 := by
    push Not
    refine ⟨if 0 ∈ B then 2 else 1, List.mem_map.2 ⟨0, List.mem_range.2 hn, rfl⟩, ?_⟩
    split_ifs <;> norm_num
  rw [stopIndex, if_neg hz, badIndices_eq _ _ _ (fun i => decide (i ∈ B))
    (by rw [hl]; exact fun i hi => bad_withFailures n B i hi), hl]
  cases (List.range n).filter fun i => decide (i ∈ B) <;> rfl

/-- The rating is not monotone: a filter that fails where another one fails and at more values gets a better rating, and
the value it is rated at is one where it fails. -/
theorem C42_monotone_violated :
    ∃ (error : ℝ) (c c' f : List ℂ), c.length = f.length ∧ c'.length = f.length ∧
      (∀ i < f.length, Bad error (c.getD i 0) (f.getD i 0) → Bad error (c'.getD i 0) (f.getD i 0)) ∧
      stopIndex error c f = 0 ∧ stopIndex error c' f = 5 ∧ Bad error (c'.getD 5 0) (f.getD 5 0) := by
  refine ⟨1 / 2, withFailures 12 [1], withFailures 12 [1, 2, 3, 5, 10], List.replicate 12 1, by simp [withFailures],
    by simp [withFailures], fun i hi => ?_, ?_, ?_, ?_⟩
  · rw [List.length_replicate] at hi
    rw [bad_withFailures _ _ _ hi, bad_withFailures _ _ _ hi]
    simp
    omega
  · rw [stop_withFailures _ (by norm_num)]
    decide
  · rw [stop_withFailures _ (by norm_num)]
    decide
  · rw [bad_withFailures _ _ _ (by norm_num)]
    decide

/-! ## Several transforms -/

/-- What one transform contributes. -/
def Contributes {n : ℕ} (d : Dlf n) (r : List ℝ) (error : ℝ) (cvar : Cvar) (f : Pair) (p : ℕ × ℝ) : Prop :=
  ∃ c v, response d f r = .ok c ∧ f.values = .ok v ∧ p.1 = stopIndex error c v ∧ value cvar r c p.1 = .ok p.2

theorem rateLoop_cons {n : ℕ} {d : Dlf n} {r : List ℝ} {error : ℝ} {cvar : Cvar} {f : Pair} {p : ℕ × ℝ}
    (h : Contributes d r error cvar f p) (fs : List Pair) (best : Option (ℕ × ℝ)) :
    rateLoop d r error cvar (f :: fs) best = match best with
      | none => rateLoop d r error cvar fs (some p)
      | some q => open Classical in
          rateLoop d r error cvar fs (some (if q.2 < p.2 then p else q)) := by
  obtain ⟨c, v, h1, h2, h3, h4⟩ := h
  obtain ⟨i, x⟩ := p
  simp only at h3 h4
  subst h3
  rw [rateLoop, h1, h2]
  simp only [bind, Except.bind, h4]
  cases best with
  | none => rfl
  | some q =>
    obtain ⟨j, y⟩ := q
    simp only
    split_ifs <;> rfl

/-- The largest value wins. -/
theorem rateLoop_max {n : ℕ} {d : Dlf n} {r : List ℝ} {error : ℝ} {cvar : Cvar} (g : Pair → ℕ × ℝ) (fs : List Pair)
    (h : ∀ f ∈ fs, Contributes d r error cvar f (g f)) (best : Option (ℕ × ℝ)) (hne : best.toList ++ fs.map g ≠ []) :
    ∃ b ∈ best.toList ++ fs.map g, rateLoop d r error cvar fs best = .ok b ∧
      ∀ p ∈ best.toList ++ fs.map g, p.2 ≤ b.2 := by
  induction fs generalizing best with
  | nil =>
    cases best with
    | none => simp at hne
    | some q => exact ⟨q, by simp, rfl, by simp⟩
  | cons f fs ih =>
    rw [rateLoop_cons (h f (by simp))]
    cases best with
    | none =>
      obtain ⟨b, hb, h1, h2⟩ := ih (fun f hf => h f (by simp [hf])) (some (g f)) (by simp)
      exact ⟨b, by simpa using hb, h1, by simpa using h2⟩
    | some q =>
      simp only
      obtain ⟨b, hb, h1, h2⟩ := ih (fun f hf => h f (by simp [hf])) (some (if q.2 < (g f).2 then g f else q)) (by simp)
      refine ⟨b, ?_, h1, ?_⟩
      · simp only [Option.toList_some, List.cons_append, List.nil_append, List.mem_cons, List.map_cons] at hb ⊢
        rcases hb with hb | hb
        · split_ifs at hb <;> simp [hb]
        · simp only [hb, or_true]
      · intro p hp
        have h0 := h2 (if q.2 < (g f).2 then g f else q) (by simp)
        simp only [Option.toList_some, List.cons_append, List.nil_append, List.mem_cons, List.map_cons] at hp
        rcases hp with rfl | rfl | hp
        · split_ifs at h0 <;> linarith
        · split_ifs at h0 <;> linarith
        · exact h2 p (by simp only [Option.toList_some, List.cons_append, List.nil_append, List.mem_cons, hp, or_true])

theorem rate_single {n : ℕ} {d : Dlf n} {r : List ℝ} {error : ℝ} {cvar : Cvar} {f : Pair} {p : ℕ × ℝ}
    (h : Contributes d r error cvar f p) : rate d r error cvar [f] = .ok (rateOut p) := by
  rw [rate, rateLoop_cons h]
  rfl

theorem contributes_of_rate {n : ℕ} {d : Dlf n} {r : List ℝ} {error : ℝ} {cvar : Cvar} {f : Pair} {x : EReal}
    (h : rate d r error cvar [f] = .ok x) : ∃ p, Contributes d r error cvar f p ∧ x = rateOut p := by
  rw [rate, rateLoop] at h
  cases h1 : response d f r with
  | error e => rw [h1] at h; cases h
  | ok c =>
    cases h2 : f.values with
    | error e => rw [h1, h2] at h; cases h
    | ok v =>
      cases h3 : value cvar r c (stopIndex error c v) with
      | error e => rw [h1, h2] at h; simp only [bind, Except.bind, h3] at h; cases h
      | ok y =>
        have hc : Contributes d r error cvar f (stopIndex error c v, y) := ⟨c, v, h1, h2, rfl, h3⟩
        refine ⟨_, hc, ?_⟩
        have := rate_single hc
        rw [rate, rateLoop, h] at this
        exact Except.ok.inj this

/-- Several transforms: a filter is as bad as its worst transform, if every transform has an accurate value, or if the
criterion is the range and not the amplitude. -/
theorem C42_several_partial {n : ℕ} (d : Dlf n) (r : List ℝ) (error : ℝ) (cvar : Cvar) (fC : List Pair) (hne : fC ≠ [])
    (ρ : Pair → EReal) (h : ∀ f ∈ fC, rate d r error cvar [f] = .ok (ρ f))
    (hc : (∀ f ∈ fC, ρ f ≠ ⊤) ∨ cvar ≠ .amp ∧ r.Pairwise (· < ·) ∧ ∀ x ∈ r, 0 < x) :
    ∃ x, rate d r error cvar fC = .ok x ∧ (∃ f ∈ fC, x = ρ f) ∧ ∀ f ∈ fC, ρ f ≤ x := by
  classical
  choose! g hg using fun f (hf : f ∈ fC) => contributes_of_rate (h f hf)
  obtain ⟨b, hb, h1, h2⟩ := rateLoop_max g fC (fun f hf => (hg f hf).1) none (by simpa using hne)
  simp only [Option.toList_none, List.nil_append, List.mem_map] at hb h2
  obtain ⟨f0, hf0, rfl⟩ := hb
  refine ⟨rateOut (g f0), by rw [rate, h1]; rfl, ⟨f0, hf0, (hg f0 hf0).2.symm⟩, fun f hf => ?_⟩
  rw [(hg f hf).2]
  have hle := h2 (g f) ⟨f, hf, rfl⟩
  rcases hc with hc | ⟨hamp, hr, hpos⟩
  · have n0 : (g f0).1 ≠ 0 := fun h0 => hc f0 hf0 (by rw [(hg f0 hf0).2, rateOut, if_pos h0])
    have n1 : (g f).1 ≠ 0 := fun h0 => hc f hf (by rw [(hg f hf).2, rateOut, if_pos h0])
    rw [rateOut, rateOut, if_neg n0, if_neg n1]
    exact_mod_cast hle
  · by_cases n0 : (g f0).1 = 0
    · rw [rateOut, rateOut, if_pos n0]; exact le_top
    · have n1 : (g f).1 ≠ 0 := by
        intro h0
        have key : ∀ k ∈ fC, r[(g k).1]? = some (1 / (g k).2) := by
          intro k hk
          obtain ⟨c, v, -, -, -, e4⟩ := (hg k hk).1
          have : ∃ x, r[(g k).1]? = some x ∧ 1 / x = (g k).2 := by
            unfold value at e4
            cases cvar with
            | amp => exact absurd rfl hamp
            | r =>
              simp only at e4
              split at e4
              · rename_i x hx; exact ⟨x, hx, by simpa using e4⟩
              · cases e4
            | other =>
              simp only at e4
              split at e4
              · rename_i x hx; exact ⟨x, hx, by simpa using e4⟩
              · cases e4
          obtain ⟨x, hx, e⟩ := this
          rw [hx, ← e, one_div_one_div]
        obtain ⟨l0, e0⟩ := List.getElem?_eq_some_iff.1 (key f0 hf0)
        obtain ⟨l1, e1⟩ := List.getElem?_eq_some_iff.1 (key f hf)
        have hlt := List.pairwise_iff_getElem.1 hr _ _ l1 l0 (by omega)
        have p1 := hpos _ (List.getElem_mem l1)
        rw [e0, e1] at hlt
        rw [e1] at p1
        have p1' : 0 < (g f).2 := by rwa [one_div, inv_pos] at p1
        have p0' : 0 < (g f0).2 := lt_of_lt_of_le p1' hle
        rw [one_div_lt_one_div p1' p0'] at hlt
        linarith
      rw [rateOut, rateOut, if_neg n0, if_neg n1]
      exact_mod_cast hle

/-- A filter whose coefficients of one transform are all zero may get a finite rating from the other transform. -/
theorem C42_several_violated :
    ∃ (n : ℕ) (d : Dlf n) (r : List ℝ) (error : ℝ) (f g : Pair),
      rate d r error .amp [f] = .ok ⊤ ∧ rate d r error .amp [f, g] = .ok ((1 / 2 : ℝ) : EReal) := by
  let d : Dlf 1 := ⟨fun _ => 1, fun k => if k = "j0".toList then some 0 else if k = "j1".toList then some 1 else none⟩
  let f : Pair := ⟨"j0".toList, 1, 1, .arr [1, 1]⟩
  let g : Pair := ⟨"j1".toList, 1, 1, .arr [1, 1 / 2]⟩
  have hf : Contributes d [1, 2] 1 .amp f (0, 0) := by
    refine ⟨[0, 0], [1, 1], ?_, rfl, ?_, by simp [value]⟩
    · rw [response, if_neg (by decide)]
      simp [f, d, dot]
    · rw [C42_criterion_zero _ _ _ (by simp)]
  have hg : Contributes d [1, 2] 1 .amp g (1, 1 / 2) := by
    refine ⟨[1, 1 / 2], [1, 1 / 2], ?_, rfl, ?_, by simp [value]⟩
    · rw [response, if_neg (by decide)]
      simp [g, d, dot]
    · rw [C42_criterion_all _ _ _ ⟨1, by simp, one_ne_zero⟩]
      · rfl
      · intro i hi
        have : i = 0 ∨ i = 1 := by simp at hi; omega
        rcases this with rfl | rfl <;> simp [Bad]
  refine ⟨1, d, [1, 2], 1, f, g, ?_, ?_⟩
  · rw [rate_single hf, rateOut, if_pos rfl]
  · rw [rate, rateLoop_cons hf]
    simp only
    rw [rateLoop_cons hg]
    simp only
    rw [if_pos (by norm_num)]
    rfl

/-! ## Search -/

theorem argmin_spec {α : Type} (J : α → EReal) (l : List α) (h : l ≠ []) :
    ∃ c ∈ l, argmin J l = some c ∧ ∀ x ∈ l, J c ≤ J x := by
  classical
  induction l with
  | nil => exact absurd rfl h
  | cons c l ih =>
    by_cases hl : l = []
    · subst hl
      exact ⟨c, by simp, rfl, by simp⟩
    · obtain ⟨d, hd, h1, h2⟩ := ih hl
      rw [argmin, h1]
      by_cases hc : J c ≤ J d
      · refine ⟨c, by simp, by simp only; rw [if_pos hc], ?_⟩
        intro x hx
        rcases List.mem_cons.1 hx with rfl | hx
        · exact le_rfl
        · exact hc.trans (h2 x hx)
      · refine ⟨d, by simp [hd], by simp only; rw [if_neg hc], ?_⟩
        intro x hx
        rcases List.mem_cons.1 hx with rfl | hx
        · exact (not_le.1 hc).le
        · exact h2 x hx

theorem evalAll_ok {α β : Type} {f : α → Except PyErr β} {l : List α} {m : List β} (h : evalAll f l = .ok m) :
    List.Forall₂ (fun x y => f x = .ok y) l m := by
  induction l generalizing m with
  | nil => cases h; exact .nil
  | cons x l ih =>
    rw [evalAll] at h
    cases hx : f x with
    | error e => rw [hx] at h; cases h
    | ok y =>
      cases hl : evalAll f l with
      | error e => rw [hx, hl] at h; cases h
      | ok ys =>
        rw [hx, hl] at h
        cases h
        exact .cons hx (ih hl)

theorem evalAll_of {α β : Type} {f : α → Except PyErr β} {g : α → β} {l : List α} (h : ∀ x ∈ l, f x = .ok (g x)) :
    evalAll f l = .ok (l.map g) := by
  induction l with
  | nil => rfl
  | cons x l ih =>
    rw [evalAll, h x (by simp), ih fun y hy => h y (by simp [hy])]
    rfl

theorem evalAll_error {α β : Type} {f : α → Except PyErr β} {l : List α} (hl : l ≠ []) {e : PyErr}
    (h : ∀ x ∈ l, f x = .error e) : evalAll f l = .error e := by
  cases l with
  | nil => exact absurd rfl hl
  | cons x l => rw [evalAll, h x (by simp)]; rfl

/-- The search returns a candidate, its rating, no candidate has a smaller one; the matrices hold all candidates and
their ratings. -/
theorem C42_search (J : ℝ → ℝ → Except PyErr EReal) (S H : List ℝ) (hS : S ≠ []) (hH : H ≠ []) (flag : ℕ)
    (ρ : ℝ → ℝ → EReal) (hJ : ∀ s ∈ S, ∀ h ∈ H, J s h = .ok (ρ s h)) :
    ∃ full, brute J S H flag = .ok full ∧
      (∃ s ∈ S, ∃ h ∈ H, full.best = ((s : EReal), (h : EReal)) ∧ full.minVal = ρ s h) ∧
      (∀ s ∈ S, ∀ h ∈ H, full.minVal ≤ ρ s h) ∧ full.nspace = S.length ∧ full.nshift = H.length ∧
      full.spacing = S.map (fun s => H.map fun _ => (s : EReal)) ∧
      full.shift = S.map (fun _ => H.map fun h => (h : EReal)) ∧ full.vals = S.map (fun s => H.map (ρ s)) ∧
      full.flag = flag := by
  have hrows : evalAll (fun s => evalAll (J s) H) S = .ok (S.map fun s => H.map (ρ s)) :=
    evalAll_of fun s hs => evalAll_of fun h hh => hJ s hs h hh
  have hzip : ∀ (f : ℝ → EReal) (l : List ℝ), (l.zip (l.map f)).map (fun hv => hv) = l.map fun x => (x, f x) := by
    intro f l
    induction l with
    | nil => rfl
    | cons x l ih => simpa using ih
  have htab : ((S.zip (S.map fun s => H.map (ρ s))).flatMap fun sr => (H.zip sr.2).map fun hv => ((sr.1, hv.1), hv.2)) =
      S.flatMap fun s => H.map fun h => ((s, h), ρ s h) := by
    have h1 : ∀ T : List ℝ, T.zip (T.map fun s => H.map (ρ s)) = T.map fun s => (s, H.map (ρ s)) := by
      intro T
      induction T with
      | nil => rfl
      | cons x l ih => simp [ih]
    rw [h1, List.flatMap_map]
    refine congrArg _ (List.map_congr_left fun s _ => ?_)
    have h2 : ∀ T : List ℝ, (T.zip (T.map (ρ s))).map (fun hv => ((s, hv.1), hv.2)) = T.map fun h => ((s, h), ρ s h) := by
      intro T
      induction T with
      | nil => rfl
      | cons x l ih => simp [ih]
    exact h2 H
  have hne : (S.flatMap fun s => H.map fun h => ((s, h), ρ s h)) ≠ [] := by
    obtain ⟨s, hs⟩ := List.exists_mem_of_ne_nil S hS
    obtain ⟨h, hh⟩ := List.exists_mem_of_ne_nil H hH
    exact List.ne_nil_of_mem (List.mem_flatMap.2 ⟨s, hs, List.mem_map.2 ⟨h, hh, rfl⟩⟩)
  obtain ⟨c, hc, h1, h2⟩ := argmin_spec (fun c : (ℝ × ℝ) × EReal => c.2) _ hne
  obtain ⟨s, hs, hc⟩ := List.mem_flatMap.1 hc
  obtain ⟨h, hh, rfl⟩ := List.mem_map.1 hc
  refine ⟨Full.mk ((s : EReal), (h : EReal)) (ρ s h) S.length H.length (S.map fun s => H.map fun _ => (s : EReal))
    (S.map fun _ => H.map fun h => (h : EReal)) (S.map fun s => H.map (ρ s)) flag, ?_, ⟨s, hs, h, hh, rfl, rfl⟩, ?_, rfl,
    rfl, rfl, rfl, rfl, rfl⟩
  · rw [brute, hrows]
    simp only [bind, Except.bind]
    rw [htab, h1]
  · intro s' hs' h' hh'
    exact h2 ((s', h'), ρ s' h') (List.mem_flatMap.2 ⟨s', hs', List.mem_map.2 ⟨h', hh', rfl⟩⟩)

end Verif.Props
