import Verif.Lemmas.KernelLink
import Mathlib.Algebra.BigOperators.Intervals

/-! Helper lemmas: `fields` of the kernel model computes the amplitudes of the explicit field. -/

namespace Verif.Lemmas
open Verif.Spec Verif.Spec.Stack Verif.Kernel Complex

/-- `pm` of `fields` -/
def pmC (ab : ℕ) (TM : Bool) : ℂ :=
  if (if TM then decide (ab ∈ plusset) else decide (ab ∉ plusset)) then 1 else -1

theorem pmC_sq (ab : ℕ) (TM : Bool) : pmC ab TM * pmC ab TM = 1 := by
  unfold pmC
  generalize (if TM then decide (ab ∈ plusset) else decide (ab ∉ plusset)) = b
  cases b <;> norm_num

variable {M : Stack} {G : ℤ → ℂ} {o : Ops}

theorem Good.xexp_xp (h : Good M G) (ho : Safe o) {s : ℤ} {zs : ℝ} (hs : M.InClosed s zs)
    (hl : s ≠ M.n - 1) : xexp o (G s) (depthOf M.D (s + 1) - (zs : EReal)) = xp M G s zs := by
  rw [depthOf_sub_real _ _ (by have := hs.1; omega), xexp_real ho (h.re_nonneg hs.1 hs.2.1)
    (sub_nonneg.2 (hs.2.2.2 hl))]
  rfl

theorem Good.xexp_xm (h : Good M G) (ho : Safe o) {s : ℤ} {zs : ℝ} (hs : M.InClosed s zs)
    (hl : s ≠ 0) : xexp o (G s) ((zs : EReal) - depthOf M.D s) = xm M G s zs := by
  rw [real_sub_depthOf _ _ hl, xexp_real ho (h.re_nonneg hs.1 hs.2.1)
    (sub_nonneg.2 (hs.2.2.1 hl))]
  rfl

theorem Good.xexp_E1xp (h : Good M G) (ho : Safe o) {s : ℤ} {zs : ℝ} (hs : M.InClosed s zs)
    (h0 : s ≠ 0) (hl : s ≠ M.n - 1) :
    xexp o (G s) (depthOf M.D (s + 1) - depthOf M.D s + (depthOf M.D (s + 1) - (zs : EReal))) =
      E1 M G s * xp M G s zs := by
  have h1 := hs.1
  have h2 := hs.2.1
  rw [depthOf_sub_real _ _ (by omega), depthOf_sub _ (by omega) h0, ← EReal.coe_add,
    xexp_real ho (h.re_nonneg h1 h2)
    (add_nonneg (sub_nonneg.2 (h.ord.mono s (by omega) (by omega)))
      (sub_nonneg.2 (hs.2.2.2 hl)))]
  unfold E1 xp
  rw [← Complex.exp_add]; congr 1; push_cast; ring

theorem Good.xexp_E1xm (h : Good M G) (ho : Safe o) {s : ℤ} {zs : ℝ} (hs : M.InClosed s zs)
    (h0 : s ≠ 0) (hl : s ≠ M.n - 1) :
    xexp o (G s) (depthOf M.D (s + 1) - depthOf M.D s + ((zs : EReal) - depthOf M.D s)) =
      E1 M G s * xm M G s zs := by
  have h1 := hs.1
  have h2 := hs.2.1
  rw [real_sub_depthOf _ _ h0, depthOf_sub _ (by omega) h0, ← EReal.coe_add,
    xexp_real ho (h.re_nonneg h1 h2)
    (add_nonneg (sub_nonneg.2 (h.ord.mono s (by omega) (by omega)))
      (sub_nonneg.2 (hs.2.2.1 h0)))]
  unfold E1 xm
  rw [← Complex.exp_add]; congr 1; push_cast; ring

section
variable (h : Good M G) (ho : Safe o) {zs : ℝ} {Rp Rm : ℤ → ℂ} (ab : ℕ) (TM : Bool)
include h ho

/-- source and receiver in the same layer, upgoing -/
theorem fields_same_up {s : ℤ} (hs : M.InClosed s zs) (hRp : Rp 0 = Rdn M G s)
    (hRm : Rm 0 = Rup M G s) :
    fields o M.n (depthOf M.D) Rp Rm G s s zs ab TM true = Us M G s zs (pmC ab TM) 1 := by
  have hp := h.p3_ne hs.1 (by have := hs.2.1; omega)
  unfold fields
  by_cases hl : s = M.n - 1
  · simp [hl, Us, Rdn_last]
  · simp only [gt_iff_lt, lt_irrefl, or_false, hl, and_false, if_false, if_true,
      Bool.true_eq_false, false_and, ne_eq, not_false_eq_true]
    rw [hRp, hRm]
    by_cases h0 : s = 0
    · rw [if_pos h0, h.xexp_xp ho hs hl]
      subst h0
      simp [Us, p3, Rup_first]
    · rw [if_neg h0, h.xexp_xp ho hs hl, h.xexp_E1xm ho hs h0 hl,
        h.xexp_E2 ho (by have := hs.1; omega) (by have := hs.2.1; omega)]
      have hp' : 1 - Rdn M G s * Rup M G s * E2 M G s = p3 M G s := by unfold p3; ring
      rw [hp', ho.div _ _ hp]
      unfold Us pmC
      split <;> ring

/-- source and receiver in the same layer, downgoing -/
theorem fields_same_dn {s : ℤ} (hs : M.InClosed s zs) (hRp : Rp 0 = Rdn M G s)
    (hRm : Rm 0 = Rup M G s) :
    fields o M.n (depthOf M.D) Rp Rm G s s zs ab TM false =
      pmC ab TM * Vs M G s zs (pmC ab TM) 1 := by
  have hp := h.p3_ne hs.1 (by have := hs.2.1; omega)
  have hsq := pmC_sq ab TM
  unfold fields
  by_cases h0 : s = 0
  · simp [h0, Vs, Rup_first]
  · simp only [gt_iff_lt, lt_irrefl, or_false, h0, and_false, if_false, if_true,
      Bool.false_eq_true, false_and, ne_eq, not_false_eq_true]
    rw [hRp, hRm]
    by_cases hl : s = M.n - 1
    · rw [if_pos hl, h.xexp_xm ho hs h0]
      have : Rdn M G s = 0 := by rw [hl]; exact Rdn_last M G
      simp only [Vs, p3, this]
      linear_combination (-Rup M G s * xm M G s zs) * hsq
    · rw [if_neg hl, h.xexp_xm ho hs h0, if_pos hl, if_pos hl, h.xexp_E1xp ho hs h0 hl,
        h.xexp_E2 ho (by have := hs.1; omega) (by have := hs.2.1; omega)]
      have hp' : 1 - Rup M G s * Rdn M G s * E2 M G s = p3 M G s := by unfold p3; ring
      rw [hp', ho.div _ _ hp]
      change (xm M G s zs + pmC ab TM * Rdn M G s * (E1 M G s * xp M G s zs)) * Rup M G s /
        p3 M G s = _
      unfold Vs
      field_simp
      linear_combination (-Rup M G s * xm M G s zs) * hsq

/-- receiver below the source layer -/
theorem fields_below {lrec s : ℤ} (hs : M.InClosed s zs) (hr1 : lrec < M.n) (hlt : s < lrec)
    (hRp : ∀ j, s ≤ j → j ≤ lrec → Rp (j - s) = Rdn M G j)
    (hRm : s ≠ 0 → Rm 0 = Rup M G s) :
    fields o M.n (depthOf M.D) Rp Rm G lrec s zs ab TM false =
      Vl M G s zs (pmC ab TM) 1 lrec := by
  have hs0 := hs.1
  have hp := h.p3_ne hs.1 (by have := hs.2.1; omega)
  have habs : |s - lrec| = lrec - s := by rw [abs_of_neg (by omega)]; ring
  have hR0 : Rp 0 = Rdn M G s := by have := hRp s (le_refl s) hlt.le; rwa [sub_self] at this
  have hne : ¬ s = lrec := by omega
  have hl : ¬ s = M.n - 1 := by omega
  unfold fields
  rw [habs]
  simp only [Bool.false_eq_true, false_and, if_false, false_or, true_and, hne,
    show ¬ (lrec = 0 ∨ lrec < s) by omega, ne_eq, hl, not_false_eq_true, if_true]
  rw [hR0]
  -- first step
  have hP1 : (if s = 0 then (1 + Rdn M G s) * 1 * xexp o (G s) (depthOf M.D (s + 1) - (zs : EReal))
      else
        (1 * xexp o (G s) (depthOf M.D (s + 1) - (zs : EReal)) +
          (if (if TM then decide (ab ∈ plusset) else decide (ab ∉ plusset)) then 1 else -1) * 1 *
            Rm 0 * xexp o (G s) (depthOf M.D (s + 1) - depthOf M.D s +
            ((zs : EReal) - depthOf M.D s))) *
          o.div (1 + Rdn M G s) (1 - Rm 0 * Rdn M G s *
            xexp o (2 * G s) (depthOf M.D (s + 1) - depthOf M.D s))) =
      Kd M G s zs (pmC ab TM) 1 * (1 + Rdn M G s) := by
    by_cases h0 : s = 0
    · rw [if_pos h0, h.xexp_xp ho hs hl]
      subst h0
      simp [Kd, p3, Rup_first]; ring
    · rw [if_neg h0, hRm h0, h.xexp_xp ho hs hl, h.xexp_E1xm ho hs h0 hl,
        h.xexp_E2 ho (by omega) (by omega)]
      have hp' : 1 - Rup M G s * Rdn M G s * E2 M G s = p3 M G s := by unfold p3; ring
      rw [hp', ho.div _ _ hp]
      change (1 * xp M G s zs + pmC ab TM * 1 * Rup M G s * (E1 M G s * xm M G s zs)) * _ = _
      unfold Kd
      field_simp
  rw [hP1]
  -- second step
  have hP2 : (if s + 1 < M.n - 1 then
        if depthOf M.D (s + 1 - -1) - depthOf M.D (s - -1) ≠ ⊤ ∧
            depthOf M.D (s + 1 - -1) - depthOf M.D (s - -1) ≠ ⊥ then
          o.div (Kd M G s zs (pmC ab TM) 1 * (1 + Rdn M G s))
            (1 + Rp (0 - -1) * xexp o (2 * G (s - -1))
              (depthOf M.D (s + 1 - -1) - depthOf M.D (s - -1)))
        else Kd M G s zs (pmC ab TM) 1 * (1 + Rdn M G s)
      else Kd M G s zs (pmC ab TM) 1 * (1 + Rdn M G s)) = Vn M G s zs (pmC ab TM) 1 0 := by
    have hden := h.den_dn (i := s + 1) (by omega) (by omega)
    by_cases h2 : s + 1 < M.n - 1
    · rw [if_pos h2]
      have e1 : s + 1 - -1 = s + 1 + 1 := by ring
      have e2 : s - -1 = s + 1 := by ring
      have e3 : Rp (0 - -1) = Rdn M G (s + 1) := by
        have := hRp (s + 1) (by omega) (by omega)
        rw [← this]; congr 1; ring
      rw [e1, e2, e3, h.xexp_E2 ho (by omega) (by omega), depthOf_sub _ (by omega) (by omega),
        if_pos ⟨EReal.coe_ne_top _, EReal.coe_ne_bot _⟩, ho.div _ _ hden]
      rfl
    · rw [if_neg h2]
      have : Rdn M G (s + 1) = 0 := by rw [show s + 1 = M.n - 1 by omega]; exact Rdn_last M G
      simp [Vn, this]
  rw [hP2]
  -- loop
  have hloop : ∀ k : ℕ, s + 1 + k ≤ lrec →
      ((List.range k).map fun m : ℕ => (2 : ℤ) + (m : ℤ)).foldl
        (fun P iz =>
          if ¬ s + iz = M.n - 1 then
            o.div (P * ((1 + Rp (iz + -1)) * xexp o (G (s + iz + -1))
                (depthOf M.D (s + iz + -1 + 1) - depthOf M.D (s + iz + -1))))
              (1 + Rp iz * xexp o (2 * G (s + iz)) (depthOf M.D (s + iz + 1) - depthOf M.D (s + iz)))
          else P * ((1 + Rp (iz + -1)) * xexp o (G (s + iz + -1))
                (depthOf M.D (s + iz + -1 + 1) - depthOf M.D (s + iz + -1))))
        (Vn M G s zs (pmC ab TM) 1 0) = Vn M G s zs (pmC ab TM) 1 k := by
    intro k
    induction k with
    | zero => intro _; rfl
    | succ k ih =>
      intro hk
      push_cast at hk
      rw [List.range_succ, List.map_append, List.foldl_append, ih (by omega)]
      simp only [List.map_cons, List.map_nil, List.foldl_cons, List.foldl_nil]
      have hden := h.den_dn (i := s + 1 + k + 1) (by omega) (by omega)
      have e1 : s + (2 + (k : ℤ)) + -1 = s + 1 + k := by ring
      have e2 : s + (2 + (k : ℤ)) = s + 1 + k + 1 := by ring
      have e3 : Rp (2 + (k : ℤ) + -1) = Rdn M G (s + 1 + k) := by
        rw [← hRp (s + 1 + k) (by omega) (by omega)]; congr 1; ring
      have e4 : Rp (2 + (k : ℤ)) = Rdn M G (s + 1 + k + 1) := by
        rw [← hRp (s + 1 + k + 1) (by omega) (by omega)]; congr 1; ring
      rw [e1, e2, e3, e4, h.xexp_E1 ho (by omega) (by omega)]
      by_cases hlast : s + 1 + (k : ℤ) + 1 = M.n - 1
      · rw [if_neg (by simpa using hlast)]
        have : Rdn M G (s + 1 + k + 1) = 0 := by rw [hlast]; exact Rdn_last M G
        simp [Vn, this]
      · rw [if_pos hlast, h.xexp_E2 ho (by omega) (by omega), ho.div _ _ hden]
        rfl
  unfold Vl
  by_cases h2 : lrec - s + 1 > 2
  · rw [if_pos h2]
    have := hloop (lrec - s - 1).toNat (by omega)
    unfold arangeUp
    rw [show (lrec - s + 1 - 2).toNat = (lrec - s - 1).toNat by omega]
    exact this
  · rw [if_neg h2]
    have : (lrec - s - 1).toNat = 0 := by omega
    rw [this]

theorem foldl_prod (f : ℤ → ℂ) (step : ℂ → ℤ → ℂ) (P : ℂ) (k : ℕ)
    (hstep : ∀ m : ℕ, m < k → ∀ P, step P (0 + (m : ℤ)) = P * f m) :
    ((List.range k).map fun m : ℕ => (0 : ℤ) + (m : ℤ)).foldl step P =
      P * ∏ m ∈ Finset.range k, f m := by
  clear h ho
  induction k with
  | zero => simp
  | succ k ih =>
    rw [List.range_succ, List.map_append, List.foldl_append, ih (fun m hm => hstep m (by omega)),
      Finset.prod_range_succ]
    simp only [List.map_cons, List.map_nil, List.foldl_cons, List.foldl_nil]
    rw [hstep k (by omega)]; ring

/-- receiver above the source layer -/
theorem fields_above {lrec s : ℤ} (hs : M.InClosed s zs) (hr0 : 0 ≤ lrec) (hlt : lrec < s)
    (hRm : ∀ j, lrec ≤ j → j ≤ s → Rm (j - lrec) = Rup M G j)
    (hRp : s ≠ M.n - 1 → Rp (s - lrec) = Rdn M G s) :
    fields o M.n (depthOf M.D) Rp Rm G lrec s zs ab TM true =
      Ul M G s zs (pmC ab TM) 1 lrec := by
  have hs1 := hs.2.1
  have hp := h.p3_ne hs.1 (by omega)
  have hsq := pmC_sq ab TM
  have habs : |s - lrec| = s - lrec := abs_of_pos (by omega)
  have hRs : Rm (s - lrec) = Rup M G s := hRm s hlt.le (le_refl s)
  have hne : ¬ s = lrec := by omega
  have h0 : s ≠ 0 := by omega
  unfold fields
  rw [habs]
  simp only [Bool.true_eq_false, false_and, if_false, true_or, true_and, hne,
    show ¬ (lrec = M.n - 1 ∨ lrec > s) by omega, if_true]
  rw [show s - lrec + 1 - 1 = s - lrec by ring, hRs]
  have hmupm : (if (if TM then decide (ab ∈ plusset) else decide (ab ∉ plusset)) = false then
      (-1 : ℂ) else 1) = pmC ab TM := by
    unfold pmC
    cases hh : (if TM then decide (ab ∈ plusset) else decide (ab ∉ plusset)) <;> simp
  have hpm : (if (if TM then decide (ab ∈ plusset) else decide (ab ∉ plusset)) = true then
      (1 : ℂ) else -1) = pmC ab TM := rfl
  rw [hmupm, hpm]
  have hP1 : (if s = M.n - 1 then
        (1 + Rup M G s) * pmC ab TM * xexp o (G s) ((zs : EReal) - depthOf M.D s)
      else
        (pmC ab TM * xexp o (G s) ((zs : EReal) - depthOf M.D s) +
          pmC ab TM * pmC ab TM * Rp (s - lrec) *
            xexp o (G s) ((if s ≠ M.n - 1 then depthOf M.D (s + 1) - depthOf M.D s else o.undef) +
              (if s ≠ M.n - 1 then (if s ≠ M.n - 1 then depthOf M.D (s + 1) - (zs : EReal)
                else o.undef) else (zs : EReal) - depthOf M.D s))) *
          o.div (1 + Rup M G s) (1 - Rp (s - lrec) * Rup M G s *
            xexp o (2 * G s)
              (if s ≠ M.n - 1 then depthOf M.D (s + 1) - depthOf M.D s else o.undef))) =
      Ku M G s zs (pmC ab TM) 1 * (1 + Rup M G s) := by
    by_cases hl : s = M.n - 1
    · rw [if_pos hl, h.xexp_xm ho hs h0]
      have : Rdn M G s = 0 := by rw [hl]; exact Rdn_last M G
      simp [Ku, p3, this]; ring
    · rw [if_neg hl, hRp hl, if_pos hl, if_pos hl, if_pos hl, h.xexp_xm ho hs h0,
        h.xexp_E1xp ho hs h0 hl, h.xexp_E2 ho (by omega) (by omega)]
      have hp' : 1 - Rdn M G s * Rup M G s * E2 M G s = p3 M G s := by unfold p3; ring
      rw [hp', ho.div _ _ hp, hsq]
      unfold Ku
      field_simp
  rw [hP1]
  have hP2 : (if depthOf M.D (s + 1 - 1) - depthOf M.D (s - 1) ≠ ⊤ ∧
            depthOf M.D (s + 1 - 1) - depthOf M.D (s - 1) ≠ ⊥ then
          o.div (Ku M G s zs (pmC ab TM) 1 * (1 + Rup M G s))
            (1 + Rm (s - lrec - 1) * xexp o (2 * G (s - 1))
              (depthOf M.D (s + 1 - 1) - depthOf M.D (s - 1)))
        else Ku M G s zs (pmC ab TM) 1 * (1 + Rup M G s)) = Un M G s zs (pmC ab TM) 1 0 := by
    have hden := h.den_up (i := s - 1) (by omega) (by omega)
    have e1 : s + 1 - 1 = s - 1 + 1 := by ring
    rw [e1]
    by_cases h2 : s - 1 = 0
    · have : depthOf M.D (s - 1 + 1) - depthOf M.D (s - 1) = ⊤ := by
        rw [h2]; simp [depthOf]
      rw [if_neg (by rw [this]; simp)]
      have : Rup M G (s - 1) = 0 := by rw [h2]; exact Rup_first M G
      simp [Un, this]
    · have e3 : Rm (s - lrec - 1) = Rup M G (s - 1) := by
        have := hRm (s - 1) (by omega) (by omega)
        rw [← this]; congr 1; ring
      rw [e3, h.xexp_E2 ho (by omega) (by omega), depthOf_sub _ (by omega) h2,
        if_pos ⟨EReal.coe_ne_top _, EReal.coe_ne_bot _⟩, ho.div _ _ hden]
      rfl
  rw [hP2]
  -- loop
  have hUn : ∀ k : ℕ, Un M G s zs (pmC ab TM) 1 k = Un M G s zs (pmC ab TM) 1 0 *
      ∏ m ∈ Finset.range k, ((1 + Rup M G (s - 1 - m)) * E1 M G (s - 1 - m) /
        (1 + Rup M G (s - 1 - m - 1) * E2 M G (s - 1 - m - 1))) := by
    intro k
    induction k with
    | zero => simp
    | succ k ih =>
      rw [Finset.prod_range_succ, ← mul_assoc, ← ih, Un]; ring
  have hstep : ∀ m : ℕ, m < (s - lrec - 1).toNat → ∀ P : ℂ,
      (if ¬ lrec + (0 + (m : ℤ)) = 0 then
            o.div (P * ((1 + Rm (0 + (m : ℤ) + 1)) * xexp o (G (lrec + (0 + (m : ℤ)) + 1))
                (depthOf M.D (lrec + (0 + (m : ℤ)) + 1 + 1) - depthOf M.D (lrec + (0 + (m : ℤ)) + 1))))
              (1 + Rm (0 + (m : ℤ)) * xexp o (2 * G (lrec + (0 + (m : ℤ))))
                (depthOf M.D (lrec + (0 + (m : ℤ)) + 1) - depthOf M.D (lrec + (0 + (m : ℤ)))))
          else P * ((1 + Rm (0 + (m : ℤ) + 1)) * xexp o (G (lrec + (0 + (m : ℤ)) + 1))
                (depthOf M.D (lrec + (0 + (m : ℤ)) + 1 + 1) -
                  depthOf M.D (lrec + (0 + (m : ℤ)) + 1)))) =
      P * ((1 + Rup M G (lrec + m + 1)) * E1 M G (lrec + m + 1) /
        (1 + Rup M G (lrec + m) * E2 M G (lrec + m))) := by
    intro m hm P
    have hm' : lrec + (m : ℤ) + 1 < s := by omega
    have hden := h.den_up (i := lrec + m) (by omega) (by omega)
    have e3 : Rm ((m : ℤ) + 1) = Rup M G (lrec + m + 1) := by
      rw [← hRm (lrec + m + 1) (by omega) (by omega)]; congr 1; ring
    have e4 : Rm (m : ℤ) = Rup M G (lrec + m) := by
      rw [← hRm (lrec + m) (by omega) (by omega)]; congr 1; ring
    rw [zero_add, e3, e4, h.xexp_E1 ho (by omega) (by omega)]
    by_cases hz : lrec + (m : ℤ) = 0
    · rw [if_neg (by simpa using hz)]
      have : Rup M G (lrec + m) = 0 := by rw [hz]; exact Rup_first M G
      simp [this]
    · rw [if_pos hz, h.xexp_E2 ho (by omega) (by omega), ho.div _ _ hden]
      ring
  unfold Ul
  by_cases h2 : s - lrec + 1 > 2
  · rw [if_pos h2]
    unfold arangeUp
    rw [show (s - lrec + 1 - 2 - 0).toNat = (s - lrec - 1).toNat by omega,
      foldl_prod h ho (fun m => (1 + Rup M G (lrec + m + 1)) * E1 M G (lrec + m + 1) /
        (1 + Rup M G (lrec + m) * E2 M G (lrec + m))) _ _ _ hstep, hUn (s - lrec - 1).toNat]
    congr 1
    rw [← Finset.prod_range_reflect]
    apply Finset.prod_congr rfl
    intro m hm
    rw [Finset.mem_range] at hm
    have e : lrec + (((s - lrec - 1).toNat - 1 - m : ℕ) : ℤ) = s - 1 - m - 1 := by omega
    have e' : s - 1 - (m : ℤ) - 1 + 1 = s - 1 - m := by ring
    rw [e, e']
  · rw [if_neg h2]
    have : (s - lrec - 1).toNat = 0 := by omega
    rw [this]

end

end Verif.Lemmas
