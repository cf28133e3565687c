import Verif.Lemmas.Ring36
import Mathlib.Analysis.SpecialFunctions.Trigonometric.Bounds

/-! Helper lemmas: snapping of the angle factor; the 36 codes in one statement. -/

namespace Verif.Lemmas
open Verif.Spec Verif.Spec.Stack Verif.Kernel Verif.Transform Verif.Utils Complex

theorem snap_bound {a1 t : ℝ} (ht : |t| ≤ 2 * Real.pi) (h : isclose |a1| t 1e-10 1e-14) :
    |(|a1| - t)| ≤ 1e-9 := by
  unfold isclose at h
  have hpi := Real.pi_le_four
  have : (1e-10 : ℝ) * |t| ≤ 1e-10 * 8 := by
    apply mul_le_mul_of_nonneg_left _ (by norm_num); linarith
  norm_num at *
  linarith

/-- The code's angle factor is the exact one, or zero; in any case it is off by at most 1e-9. -/
theorem angleFactor_close (angle : ℝ) (ab : ℕ) (msrc mrec : Bool) :
    |angleFactor angle ab msrc mrec - exactFactor angle ab msrc mrec| ≤ 1e-9 ∧
    (angleFactor angle ab msrc mrec = exactFactor angle ab msrc mrec ∨
      angleFactor angle ab msrc mrec = 0) := by
  have hpi := Real.pi_pos
  unfold angleFactor exactFactor
  by_cases h33 : ab ∈ [33]
  · simp only [if_pos h33, sub_self, abs_zero]; norm_num
  simp only [if_neg h33]
  generalize (if ab ∈ [11, 22, 15, 24, 12, 21, 14, 25] then
    (if mrec = true ∧ msrc = false then angle + Real.pi else angle) * 2
    else (if mrec = true ∧ msrc = false then angle + Real.pi else angle)) = a1
  have key : ∀ (f : ℝ), (∀ t, |(|a1| - t)| ≤ 1e-9 → (f = Real.cos a1 ∧ (t = Real.pi / 2 ∨
      t = 3 * Real.pi / 2)) ∨ (f = Real.sin a1 ∧ (t = Real.pi ∨ t = 2 * Real.pi)) → |0 - f| ≤ 1e-9) := by
    rintro f t ht (⟨rfl, h⟩ | ⟨rfl, h⟩)
    · have e : Real.cos t = 0 := by
        rcases h with rfl | rfl
        · exact Real.cos_pi_div_two
        · have : 3 * Real.pi / 2 = Real.pi / 2 + Real.pi := by ring
          rw [this, Real.cos_add_pi, Real.cos_pi_div_two, neg_zero]
      rw [zero_sub, abs_neg, ← Real.cos_abs a1, ← sub_zero (Real.cos |a1|), ← e]
      exact (Real.abs_cos_sub_cos_le _ _).trans ht
    · have e : Real.sin t = 0 := by
        rcases h with rfl | rfl
        · exact Real.sin_pi
        · exact Real.sin_two_pi
      have e2 : abs (Real.sin a1) = abs (Real.sin (abs a1)) := by
        rcases abs_choice a1 with h | h <;> rw [h]
        rw [Real.sin_neg, abs_neg]
      rw [zero_sub, abs_neg, e2, ← sub_zero (Real.sin |a1|), ← e]
      exact (Real.abs_sin_sub_sin_le _ _).trans ht
  have b1 : |Real.pi / 2| ≤ 2 * Real.pi := by rw [abs_of_pos] <;> linarith
  have b2 : |3 * Real.pi / 2| ≤ 2 * Real.pi := by rw [abs_of_pos] <;> linarith
  have b3 : |Real.pi| ≤ 2 * Real.pi := by rw [abs_of_pos] <;> linarith
  have b4 : |2 * Real.pi| ≤ 2 * Real.pi := by rw [abs_of_pos] <;> linarith
  generalize hT1 : (if ab ∈ [11, 22, 15, 24, 13, 31, 26, 35] then Real.pi / 2 else Real.pi) = T1
  generalize hT2 : (if ab ∈ [11, 22, 15, 24, 13, 31, 26, 35] then 3 * Real.pi / 2
    else 2 * Real.pi) = T2
  by_cases hc : ab ∈ [11, 22, 15, 24, 13, 31, 26, 35]
  · rw [if_pos hc] at hT1 hT2
    subst hT1 hT2
    simp only [hc, if_true]
    split_ifs with t1 t2
    · exact ⟨key _ _ (snap_bound b1 t1) (Or.inl ⟨rfl, Or.inl rfl⟩), Or.inr rfl⟩
    · exact ⟨key _ _ (snap_bound b2 t2) (Or.inl ⟨rfl, Or.inr rfl⟩), Or.inr rfl⟩
    · simp only [sub_self, abs_zero]; norm_num
  · rw [if_neg hc] at hT1 hT2
    subst hT1 hT2
    simp only [hc, if_false]
    split_ifs with t1 t2
    · exact ⟨key _ _ (snap_bound b3 t1) (Or.inr ⟨rfl, Or.inl rfl⟩), Or.inr rfl⟩
    · exact ⟨key _ _ (snap_bound b4 t2) (Or.inr ⟨rfl, Or.inr rfl⟩), Or.inr rfl⟩
    · simp only [sub_self, abs_zero]; norm_num

/-- Decoding of all codes, in terms of receiver digit `a` and source digit `b`. -/
theorem checkAb_digits {a b : ℕ} (ha : 1 ≤ a ∧ a ≤ 6) (hb : 1 ≤ b ∧ b ≤ 6) :
    checkAb (.int (10 * a + b)) = .ok (
      if 3 < a then (if 3 < b then 10 * (a - 3) + (b - 3) else 10 * b + a) else 10 * a + b,
      decide (3 < b), decide (3 < a)) := by
  obtain ⟨a1, a2⟩ := ha
  obtain ⟨b1, b2⟩ := hb
  interval_cases a <;> interval_cases b <;> rfl

theorem ring_all {M : Medium} {lam : ℝ} {o : Ops} {s r : ℤ} {zs zr : ℝ} {xd : Bool}
    {rho θ : ℝ} {F Fh : ℝ → PlaneField} (hM : M.OK) (ho : Safe o) (hlam : 0 < lam)
    (hrho : 0 < rho) (hs : M.InClosed s zs) (hr : M.InClosed r zr) (hsr : zr = zs → r = s)
    {a b : ℕ} (ha : 1 ≤ a ∧ a ≤ 6) (hb : 1 ≤ b ∧ b ≤ 6)
    (hF : ∀ φ, IsPlaneField M (lam * Real.cos φ) (lam * Real.sin φ) zs s (unitDipole b) (F φ))
    (hH : ∀ φ, IsPlaneField (M.homog s) (lam * Real.cos φ) (lam * Real.sin φ) zs 0
      (unitDipole b) (Fh φ)) :
    ∃ abc msrc mrec, checkAb (.int (10 * a + b)) = .ok (abc, msrc, mrec) ∧
      RingClaim o M zs zr s r lam rho θ xd F Fh a b abc msrc mrec := by
  refine ⟨_, _, _, checkAb_digits ha hb, ?_⟩
  obtain ⟨Ao, Bo, Ae, Be, R1⟩ := resp_exists (OK.tm_ord hM lam) (OK.tm_pas hM lam) hs zr r xd
  obtain ⟨Ao', Bo', Ae', Be', R2⟩ := resp_exists (OK.te_ord hM lam) (OK.te_pas hM lam) hs zr r xd
  obtain ⟨a1, a2⟩ := ha
  obtain ⟨b1, b2⟩ := hb
  interval_cases a <;> interval_cases b
  · exact ring11 hM ho hlam hrho hs hr hsr R1 R2 hF hH
  · exact ring12 hM ho hlam hrho hs hr hsr R1 R2 hF hH
  · exact ring13 hM ho hlam hrho hs hr hsr R1 R2 hF hH
  · exact ring14 hM ho hlam hrho hs hr hsr R1 R2 hF hH
  · exact ring15 hM ho hlam hrho hs hr hsr R1 R2 hF hH
  · exact ring16 hM ho hlam hrho hs hr hsr R1 R2 hF hH
  · exact ring21 hM ho hlam hrho hs hr hsr R1 R2 hF hH
  · exact ring22 hM ho hlam hrho hs hr hsr R1 R2 hF hH
  · exact ring23 hM ho hlam hrho hs hr hsr R1 R2 hF hH
  · exact ring24 hM ho hlam hrho hs hr hsr R1 R2 hF hH
  · exact ring25 hM ho hlam hrho hs hr hsr R1 R2 hF hH
  · exact ring26 hM ho hlam hrho hs hr hsr R1 R2 hF hH
  · exact ring31 hM ho hlam hrho hs hr hsr R1 R2 hF hH
  · exact ring32 hM ho hlam hrho hs hr hsr R1 R2 hF hH
  · exact ring33 hM ho hlam hrho hs hr hsr R1 R2 hF hH
  · exact ring34 hM ho hlam hrho hs hr hsr R1 R2 hF hH
  · exact ring35 hM ho hlam hrho hs hr hsr R1 R2 hF hH
  · exact ring36 hM ho hlam hrho hs hr hsr R1 R2 hF hH
  · exact ring41 hM ho hlam hrho hs hr hsr R1 R2 hF hH
  · exact ring42 hM ho hlam hrho hs hr hsr R1 R2 hF hH
  · exact ring43 hM ho hlam hrho hs hr hsr R1 R2 hF hH
  · exact ring44 hM ho hlam hrho hs hr hsr R1 R2 hF hH
  · exact ring45 hM ho hlam hrho hs hr hsr R1 R2 hF hH
  · exact ring46 hM ho hlam hrho hs hr hsr R1 R2 hF hH
  · exact ring51 hM ho hlam hrho hs hr hsr R1 R2 hF hH
  · exact ring52 hM ho hlam hrho hs hr hsr R1 R2 hF hH
  · exact ring53 hM ho hlam hrho hs hr hsr R1 R2 hF hH
  · exact ring54 hM ho hlam hrho hs hr hsr R1 R2 hF hH
  · exact ring55 hM ho hlam hrho hs hr hsr R1 R2 hF hH
  · exact ring56 hM ho hlam hrho hs hr hsr R1 R2 hF hH
  · exact ring61 hM ho hlam hrho hs hr hsr R1 R2 hF hH
  · exact ring62 hM ho hlam hrho hs hr hsr R1 R2 hF hH
  · exact ring63 hM ho hlam hrho hs hr hsr R1 R2 hF hH
  · exact ring64 hM ho hlam hrho hs hr hsr R1 R2 hF hH
  · exact ring65 hM ho hlam hrho hs hr hsr R1 R2 hF hH
  · exact ring66 hM ho hlam hrho hs hr hsr R1 R2 hF hH

end Verif.Lemmas
