import Verif.Lemmas.FieldsLink
import Verif.Lemmas.Exist

/-! Helper lemmas: `green` of the kernel model is the field of the specification. -/

namespace Verif.Lemmas
open Verif.Spec Verif.Spec.Stack Verif.Kernel Complex

variable {M : Stack} {G : ℤ → ℂ} {o : Ops}

/-- the component selected by `green`: `B / Y` or `A` -/
noncomputable def pick (b : Bool) (M : Stack) (G : ℤ → ℂ) (s : ℤ) (zs : ℝ) (α β : ℂ) (i : ℤ)
    (z : ℝ) : ℂ :=
  if b then fldB M G s zs α β z / Yl M G i else fldA M G s zs α β z

/-- the sign of the downgoing wave in the selected component -/
def sgB (b : Bool) : ℂ := if b then -1 else 1

section
variable {s r : ℤ} {zs zr : ℝ} {α β : ℂ} {b : Bool}

theorem Good.Y_ne (h : Good M G) {i : ℤ} (h0 : 0 ≤ i) (h1 : i < M.n) : Yl M G i ≠ 0 := by
  intro hz
  have := h.Y_re h0 h1
  rw [hz] at this; simp at this

theorem Good.pick_below (h : Good M G) (hs : M.InClosed s zs) (hr : M.InClosed r zr)
    (hz : zs < zr) : pick b M G s zs α β r zr =
      dnU M G s zs α β r zr + sgB b * dnD M G s zs α β r zr := by
  have hA := paste_below h.ord hs (h.matchedA (α := α) (β := β) hs) r zr hz hr
  have hB := paste_below h.ord hs (h.matchedB (α := α) (β := β) hs) r zr hz hr
  have hY := h.Y_ne hr.1 hr.2.1
  unfold pick sgB fldA fldB
  cases b
  · simp only [Bool.false_eq_true, if_false]; rw [hA, dnA]; ring
  · simp only [if_true]; rw [hB, dnB]; field_simp; ring

theorem Good.pick_above (h : Good M G) (hs : M.InClosed s zs) (hr : M.InClosed r zr)
    (hz : zr < zs) : pick b M G s zs α β r zr =
      upU M G s zs α β r zr + sgB b * upD M G s zs α β r zr := by
  have hA := paste_above h.ord hs (h.matchedA (α := α) (β := β) hs) r zr hz hr
  have hB := paste_above h.ord hs (h.matchedB (α := α) (β := β) hs) r zr hz hr
  have hY := h.Y_ne hr.1 hr.2.1
  unfold pick sgB fldA fldB
  cases b
  · simp only [Bool.false_eq_true, if_false]; rw [hA, upA]; ring
  · simp only [if_true]; rw [hB, upB]; field_simp; ring

theorem Good.pick_at (h : Good M G) (hs : M.InClosed s zs) : pick b M G s zs α β s zs =
      ((upU M G s zs α β s zs + sgB b * upD M G s zs α β s zs) +
       (dnU M G s zs α β s zs + sgB b * dnD M G s zs α β s zs)) / 2 := by
  have hY := h.Y_ne hs.1 hs.2.1
  unfold pick sgB fldA fldB paste
  simp only [lt_irrefl, if_false]
  cases b
  · simp only [Bool.false_eq_true, if_false]; rw [dnA, upA]; ring
  · simp only [if_true]; rw [dnB, upB]; field_simp; ring

end

/-- list of `ab` for which `green` subtracts instead of adds (kernel.py 283, 303) -/
def minusset : List ℕ := [13, 23, 31, 32, 14, 24, 15, 25]

/-- list of `ab` for which `green` computes the `B` component in the TM case -/
def bset : List ℕ := [11, 12, 13, 21, 22, 23, 14, 24, 15, 25]

def isB (ab : ℕ) (TM : Bool) : Bool := TM && decide (ab ∈ bset)

/-- Consistency of the sign tables of the code. -/
def SignOK (ab : ℕ) (TM : Bool) : Prop :=
  (if ab ∈ minusset then (-1 : ℂ) else 1) = sgB (isB ab TM) * pmC ab TM

theorem signOK_TM {ab : ℕ} (h : ab ∈ [11, 12, 21, 22, 13, 23, 14, 15, 24, 25, 31, 32, 33, 34, 35]) :
    SignOK ab true := by
  simp only [List.mem_cons, List.not_mem_nil, or_false] at h
  rcases h with h | h | h | h | h | h | h | h | h | h | h | h | h | h | h <;> subst h <;>
    simp [SignOK, minusset, sgB, isB, bset, pmC, plusset]

theorem signOK_TE {ab : ℕ} (h : ab ∈ [11, 12, 21, 22, 14, 15, 24, 25, 16, 26]) :
    SignOK ab false := by
  simp only [List.mem_cons, List.not_mem_nil, or_false] at h
  rcases h with h | h | h | h | h | h | h | h | h | h <;> subst h <;>
    simp [SignOK, minusset, sgB, isB, bset, pmC, plusset]

/-- The homogeneous stack with the properties of layer `s`. -/
def homog (M : Stack) (s : ℤ) : Stack := ⟨1, M.D, fun _ => M.e s, fun _ => M.q s⟩

theorem Good.homog (h : Good M G) {s : ℤ} (h0 : 0 ≤ s) (h1 : s < M.n) :
    Good (homog M s) (fun _ => G s) where
  ord := ⟨by simp [Lemmas.homog], fun i h1 h2 => by simp [Lemmas.homog] at h2; omega⟩
  lay := fun _ _ _ => h.lay s h0 h1

theorem homog_inClosed (M : Stack) (s : ℤ) (z : ℝ) : (homog M s).InClosed 0 z :=
  ⟨le_refl _, by simp [homog], by simp, by simp [homog]⟩

section green
variable (h : Good M G) (ho : Safe o) {c : ℂ} (hc : c ≠ 0) {ab : ℕ} {TM : Bool}
include h ho

/-- direct wave of `green` -/
theorem direct_eq {s : ℤ} {zs zr : ℝ} (hs : M.InClosed s zs)
    (hsg : SignOK ab TM) :
    (let directf := xexp o (G s) ((|zs - zr| : ℝ) : EReal)
      let directf :=
        if TM = true ∧ ab ∈ [11, 12, 13, 14, 15, 21, 22, 23, 24, 25] then directf * (-1)
        else directf
      if ab ∈ [13, 14, 15, 23, 24, 25, 31, 32] then directf * (((zr - zs).sign : ℝ) : ℂ)
        else directf) =
      if zs < zr then sgB (isB ab TM) * Complex.exp (-G s * ((zr - zs : ℝ) : ℂ))
      else if zr < zs then pmC ab TM * Complex.exp (-G s * ((zs - zr : ℝ) : ℂ))
      else (pmC ab TM + sgB (isB ab TM)) / 2 := by
  have hsq := pmC_sq ab TM
  have e1 : (TM = true ∧ ab ∈ [11, 12, 13, 14, 15, 21, 22, 23, 24, 25]) ↔ isB ab TM = true := by
    unfold isB bset
    simp only [Bool.and_eq_true, decide_eq_true_eq, List.mem_cons, List.not_mem_nil, or_false]
    tauto
  have e2 : (ab ∈ [13, 14, 15, 23, 24, 25, 31, 32]) ↔ ab ∈ minusset := by
    unfold minusset
    simp only [List.mem_cons, List.not_mem_nil, or_false]
    tauto
  have hx : xexp o (G s) ((|zs - zr| : ℝ) : EReal) = Complex.exp (-G s * ((|zs - zr| : ℝ) : ℂ)) :=
    xexp_real ho (h.re_nonneg hs.1 hs.2.1) (abs_nonneg _)
  unfold SignOK at hsg
  simp only [e1, e2]
  rw [hx]
  have hb : (if isB ab TM = true then Complex.exp (-G s * ((|zs - zr| : ℝ) : ℂ)) * -1
      else Complex.exp (-G s * ((|zs - zr| : ℝ) : ℂ))) =
      sgB (isB ab TM) * Complex.exp (-G s * ((|zs - zr| : ℝ) : ℂ)) := by
    unfold sgB; split <;> ring
  rw [hb]
  have hss : sgB (isB ab TM) * sgB (isB ab TM) = 1 := by unfold sgB; split <;> norm_num
  have hpm : pmC ab TM = (if ab ∈ minusset then (-1 : ℂ) else 1) * sgB (isB ab TM) := by
    rw [hsg]; linear_combination (-pmC ab TM) * hss
  rw [hpm]
  rcases lt_trichotomy zs zr with hz | hz | hz
  · rw [if_pos hz, abs_of_neg (by linarith), Real.sign_of_pos (by linarith), neg_sub]
    split <;> simp
  · subst hz
    simp only [lt_irrefl, if_false, sub_self, abs_zero, Real.sign_zero]
    split <;> simp
  · rw [if_neg (not_lt.2 hz.le), if_pos hz, abs_of_pos (by linarith),
      Real.sign_of_neg (by linarith)]
    split <;> simp

include hc

/-- `green` without source-layer direct field -/
theorem green_same_x {s : ℤ} {zs zr : ℝ} (hs : M.InClosed s zs) (hr : M.InClosed s zr)
    (hsg : SignOK ab TM) :
    green o M.n (depthOf M.D) (fun i => c * M.e i) G s s zr zs ab true TM =
      wu M G s (Us M G s zs (pmC ab TM) 1) zr +
        sgB (isB ab TM) * wd M G s (Vs M G s zs (pmC ab TM) 1) zr := by
  have hn := h.ord.pos
  have hs0 := hs.1
  have hs1 := hs.2.1
  have hRp := refl_plus h ho hc (lrec := s) (lsrc := s) hs0 hs1 hs0 hs1 (by omega) (j := s)
    (by simp) (by simp)
  have hRm := refl_minus h ho hc (lrec := s) (lsrc := s) hs0 hs1 hs0 hs1 (by omega) (j := s)
    (by simp) (by simp)
  rw [min_self, sub_self] at hRp hRm
  have hU := fields_same_up h ho ab TM hs hRp hRm
  have hD := fields_same_dn h ho ab TM hs hRp hRm
  unfold green
  simp only [if_true]
  rw [hU, hD]
  have hWu : Us M G s zs (pmC ab TM) 1 * (if s ≠ M.n - 1 then
      xexp o (G s) (depthOf M.D (s + 1) - (zr : EReal)) else 0) =
      wu M G s (Us M G s zs (pmC ab TM) 1) zr := by
    by_cases hl : s = M.n - 1
    · rw [if_neg (by simpa using hl)]
      have : Rdn M G s = 0 := by rw [hl]; exact Rdn_last M G
      simp [wu, Us, this]
    · rw [if_pos hl, h.xexp_xp ho hr hl]; rfl
  have hWd : Vs M G s zs (pmC ab TM) 1 * (if s ≠ 0 then
      xexp o (G s) ((zr : EReal) - depthOf M.D s) else 0) =
      wd M G s (Vs M G s zs (pmC ab TM) 1) zr := by
    by_cases hl : s = 0
    · rw [if_neg (by simpa using hl)]
      have : Rup M G s = 0 := by rw [hl]; exact Rup_first M G
      simp [wd, Vs, this]
    · rw [if_pos hl, h.xexp_xm ho hr hl]; rfl
  rw [hWu, mul_assoc (pmC ab TM), hWd]
  have e2 : (ab ∈ [13, 23, 31, 32, 14, 24, 15, 25]) ↔ ab ∈ minusset := Iff.rfl
  have hsq := pmC_sq ab TM
  unfold SignOK at hsg
  by_cases h1 : M.n > 1
  · simp only [h1, true_and, e2, if_true]
    by_cases hm : ab ∈ minusset
    · rw [if_pos hm] at hsg ⊢
      linear_combination (wd M G s (Vs M G s zs (pmC ab TM) 1) zr * pmC ab TM) * hsg +
        (sgB (isB ab TM) * wd M G s (Vs M G s zs (pmC ab TM) 1) zr) * hsq
    · rw [if_neg hm] at hsg ⊢
      linear_combination (wd M G s (Vs M G s zs (pmC ab TM) 1) zr * pmC ab TM) * hsg +
        (sgB (isB ab TM) * wd M G s (Vs M G s zs (pmC ab TM) 1) zr) * hsq
  · simp only [h1, false_and, if_false]
    have hs' : s = 0 := by omega
    have h1' : s = M.n - 1 := by omega
    have r1 : Rup M G s = 0 := by rw [hs']; exact Rup_first M G
    have r2 : Rdn M G s = 0 := by rw [h1']; exact Rdn_last M G
    simp [wd, Vs, r1, wu, Us, r2]

/-- `green` in full -/
theorem green_eq {s r : ℤ} {zs zr : ℝ} (hs : M.InClosed s zs) (hr : M.InClosed r zr)
    (hsr : zr = zs → r = s) (hsg : SignOK ab TM) :
    green o M.n (depthOf M.D) (fun i => c * M.e i) G r s zr zs ab false TM =
      pick (isB ab TM) M G s zs (pmC ab TM) 1 r zr := by
  by_cases hne : r = s
  · subst hne
    have hx := green_same_x h ho hc (zs := zs) (zr := zr) hs hr hsg
    have hd := direct_eq h ho (zs := zs) (zr := zr) hs hsg
    unfold green at hx ⊢
    simp only [if_true, Bool.false_eq_true, if_false] at hx ⊢
    rw [hx]
    simp only at hd
    rw [hd]
    rcases lt_trichotomy zs zr with hz | hz | hz
    · rw [if_pos hz, h.pick_below hs hr hz]
      simp only [dnU, dnD, if_true]; ring
    · subst hz
      rw [if_neg (lt_irrefl _), if_neg (lt_irrefl _), h.pick_at hs]
      simp only [dnU, dnD, upU, upD, if_true, sub_self, ofReal_zero, mul_zero, Complex.exp_zero]
      ring
    · rw [if_neg (not_lt.2 hz.le), if_pos hz, h.pick_above hs hr hz]
      simp only [upU, upD, if_true]; ring
  · have hs0 := hs.1
    have hs1 := hs.2.1
    have hr0 := hr.1
    have hr1 := hr.2.1
    have hne' : ¬ s = r := fun e => hne e.symm
    have hpmw : (if TM = true ∧ ab ∈ [11, 12, 13, 21, 22, 23, 14, 24, 15, 25] then (-1 : ℂ) else 1)
        = sgB (isB ab TM) := by
      unfold sgB isB bset
      by_cases h1 : TM = true <;> by_cases h2 : ab ∈ [11, 12, 13, 21, 22, 23, 14, 24, 15, 25] <;>
        simp [h1, h2]
    rcases lt_or_gt_of_ne hne with hlt | hlt
    · -- receiver above
      have hz : zr < zs := by
        have h1 := hr.2.2.2 (by omega)
        have h2 := hs.2.2.1 (by omega)
        have h3 := mono_le h.ord (i := r + 1) (j := s) (by omega) (by omega) (by omega)
        rcases (h1.trans (h3.trans h2)).lt_or_eq with h4 | h4
        · exact h4
        · exact absurd (hsr h4) hne
      have hmin : min r s = r := min_eq_left hlt.le
      have hmax : max r s = s := max_eq_right hlt.le
      have hRm : ∀ j, r ≤ j → j ≤ s → reflections o M.n (depthOf M.D) (fun i => c * M.e i) G r s
          false (j - r) = Rup M G j := by
        intro j h1 h2
        have := refl_minus h ho hc (lrec := r) (lsrc := s) hr0 hr1 hs0 hs1 (by omega) (j := j)
          (by omega) (by omega)
        rwa [hmin] at this
      have hRp : s ≠ M.n - 1 → reflections o M.n (depthOf M.D) (fun i => c * M.e i) G r s
          true (s - r) = Rdn M G s := by
        intro hl
        have := refl_plus h ho hc (lrec := r) (lsrc := s) hr0 hr1 hs0 hs1 (by omega) (j := s)
          (by omega) (by omega)
        rwa [hmin] at this
      have hU := fields_above h ho ab TM hs hr0 hlt hRm hRp
      have hR0 := hRm r (le_refl r) hlt.le
      rw [sub_self] at hR0
      unfold green
      rw [if_neg hne', if_pos hlt, hU, hR0, hpmw, if_neg (show ¬ r = M.n - 1 by omega),
        if_pos (show r ≠ M.n - 1 by omega),
        h.xexp_xp ho hr (by omega), h.pick_above hs hr hz]
      simp only [upU, upD, hne, if_false, wu, wd]
      by_cases h0 : r = 0
      · have : Rup M G r = 0 := by rw [h0]; exact Rup_first M G
        rw [this]; simp [h0, xp]
      · rw [if_pos h0, h.xexp_xm ho hr h0, h.xexp_E1 ho (by omega) (by omega)]
        unfold xp xm; ring
    · -- receiver below
      have hz : zs < zr := by
        have h1 := hr.2.2.1 (by omega)
        have h2 := hs.2.2.2 (by omega)
        have h3 := mono_le h.ord (i := s + 1) (j := r) (by omega) (by omega) (by omega)
        rcases (h2.trans (h3.trans h1)).lt_or_eq with h4 | h4
        · exact h4
        · exact absurd (hsr h4.symm) hne
      have hmin : min r s = s := min_eq_right (le_of_lt hlt)
      have hRp : ∀ j, s ≤ j → j ≤ r → reflections o M.n (depthOf M.D) (fun i => c * M.e i) G r s
          true (j - s) = Rdn M G j := by
        intro j h1 h2
        have := refl_plus h ho hc (lrec := r) (lsrc := s) hr0 hr1 hs0 hs1 (by omega) (j := j)
          (by omega) (by omega)
        rwa [hmin] at this
      have hRm : s ≠ 0 → reflections o M.n (depthOf M.D) (fun i => c * M.e i) G r s
          false 0 = Rup M G s := by
        intro hl
        have := refl_minus h ho hc (lrec := r) (lsrc := s) hr0 hr1 hs0 hs1 (by omega) (j := s)
          (by omega) (by omega)
        rwa [hmin, sub_self] at this
      have hU := fields_below h ho ab TM hs hr1 hlt hRp hRm
      have hR0 := hRp r (le_of_lt hlt) (le_refl r)
      have habs : |s - r| = r - s := by rw [abs_of_neg (by omega)]; ring
      unfold green
      rw [if_neg hne', if_neg (by omega), hU, habs, hR0, hpmw, h.pick_below hs hr hz]
      simp only [dnU, dnD, hne, if_false, wu, wd]
      rw [if_pos (show r ≠ 0 by omega), h.xexp_xm ho hr (by omega)]
      by_cases h0 : r = M.n - 1
      · have : Rdn M G r = 0 := by rw [h0]; exact Rdn_last M G
        simp only [h0, ne_eq, not_true_eq_false, if_false, xm]
        rw [← h0, this]; ring
      · rw [if_pos h0, if_neg h0, h.xexp_xp ho hr h0, h.xexp_E1 ho (by omega) (by omega)]
        unfold xp xm; ring

/-- `green` with `xdirect`: in the source layer the direct field is left out, elsewhere the
flag has no influence. -/
theorem green_xdirect {s r : ℤ} {zs zr : ℝ} (hs : M.InClosed s zs) (hr : M.InClosed r zr)
    (hsr : zr = zs → r = s) (hsg : SignOK ab TM) :
    green o M.n (depthOf M.D) (fun i => c * M.e i) G r s zr zs ab true TM =
      pick (isB ab TM) M G s zs (pmC ab TM) 1 r zr -
        if r = s then pick (isB ab TM) (homog M s) (fun _ => G s) 0 zs (pmC ab TM) 1 0 zr else 0 := by
  by_cases hne : r = s
  · subst hne
    rw [if_pos rfl, ← green_eq h ho hc hs hr hsr hsg]
    have hd := direct_eq h ho (zs := zs) (zr := zr) hs hsg
    have hh := h.homog hs.1 hs.2.1
    have hp : pick (isB ab TM) (homog M r) (fun _ => G r) 0 zs (pmC ab TM) 1 0 zr =
        if zs < zr then sgB (isB ab TM) * Complex.exp (-G r * ((zr - zs : ℝ) : ℂ))
        else if zr < zs then pmC ab TM * Complex.exp (-G r * ((zs - zr : ℝ) : ℂ))
        else (pmC ab TM + sgB (isB ab TM)) / 2 := by
      have hc0 := homog_inClosed M r zs
      have hc1 := homog_inClosed M r zr
      have r1 : Rup (homog M r) (fun _ => G r) 0 = 0 := Rup_first _ _
      have r2 : Rdn (homog M r) (fun _ => G r) 0 = 0 := Rdn_last (homog M r) (fun _ => G r)
      rcases lt_trichotomy zs zr with hz | hz | hz
      · rw [if_pos hz, hh.pick_below hc0 hc1 hz]
        simp [dnU, dnD, wu, wd, Us, Vs, r1, r2]
      · subst hz
        rw [if_neg (lt_irrefl _), if_neg (lt_irrefl _), hh.pick_at hc0]
        simp [dnU, dnD, upU, upD, wu, wd, Us, Vs, r1, r2]
      · rw [if_neg (not_lt.2 hz.le), if_pos hz, hh.pick_above hc0 hc1 hz]
        simp [upU, upD, wu, wd, Us, Vs, r1, r2]
    rw [hp, ← hd]
    unfold green
    simp
  · rw [if_neg hne, sub_zero, ← green_eq h ho hc hs hr hsr hsg]
    unfold green
    have hne' : ¬ s = r := fun e => hne e.symm
    simp [hne']

end green

end Verif.Lemmas
