import Verif.Model.Fftlog
import Verif.Model.Tem
import Mathlib.Analysis.SpecialFunctions.Trigonometric.Basic

/-!
# C43 — FFT and FFTLog combine the Fourier coefficients as the transforms require
-/

namespace Verif.Props
open Verif.Tem Verif.Fftlog

/-! ## FFT -/

/-- Inverse Fourier sum of a real signal: frequencies `(m+1) dfreq`, at the time whose phase per frequency
step is `θ`. -/
noncomputable def inverseSum (n : ℕ) (dfreq : ℝ) (x : ℕ → ℂ) (θ : ℝ) : ℝ :=
  2 * dfreq * ∑ m ∈ Finset.range n, (x m * Complex.exp (Complex.I * θ * (m + 1))).re

theorem exp_mod (N : ℕ) (hN : 0 < N) (q : ℕ) (l : ℤ) :
    Complex.exp (2 * Real.pi * Complex.I * l * ((q % N : ℕ) : ℂ) / N) =
      Complex.exp (2 * Real.pi * Complex.I * l * (q : ℂ) / N) := by
  have hN' : (N : ℂ) ≠ 0 := by exact_mod_cast hN.ne'
  rw [Complex.exp_eq_exp_iff_exists_int]
  have h : (q : ℂ) = ((q % N : ℕ) : ℂ) + (N : ℂ) * ((q / N : ℕ) : ℂ) := by
    exact_mod_cast (Nat.mod_add_div q N).symm
  rw [h]
  generalize q / N = d
  refine ⟨-(l * (d : ℤ)), ?_⟩
  push_cast
  field_simp
  ring

/-- **C43, FFT.**  What the series consists of: with `θ` the phase per frequency step, the conjugate half
has frequencies `1 … n`, the other half has frequency `m + 2` at index `m`. -/
theorem C43_fft (n : ℕ) (hn : 0 < n) (dfreq : ℝ) (x : ℕ → ℂ) (k : ℕ) :
    fftSeries n dfreq x k = dfreq *
      ((∑ m ∈ Finset.range (n - 1), x (m + 1) *
          Complex.exp (Complex.I * (2 * Real.pi * ((k : ℝ) - n) / (2 * n) : ℝ) * m)) +
        ∑ m ∈ Finset.range n, (starRingEnd ℂ) (x m) *
          Complex.exp (-(Complex.I * (2 * Real.pi * ((k : ℝ) - n) / (2 * n) : ℝ) * (m + 1)))).re := by
  have hn' : (n : ℂ) ≠ 0 := by exact_mod_cast hn.ne'
  have hN : 0 < 2 * n := by omega
  -- phase of index `l`
  have hph : ∀ l : ℤ, Complex.exp (2 * Real.pi * Complex.I * l * (((k + n) % (2 * n) : ℕ) : ℂ) / ((2 * n : ℕ) : ℂ)) =
      Complex.exp (Complex.I * (2 * Real.pi * ((k : ℝ) - n) / (2 * n) : ℝ) * l) := by
    intro l
    rw [exp_mod (2 * n) hN (k + n) l, Complex.exp_eq_exp_iff_exists_int]
    refine ⟨l, ?_⟩
    push_cast
    field_simp
    ring
  have hsum : ∑ j ∈ Finset.range (2 * n), fftIn n x j *
      Complex.exp (2 * Real.pi * Complex.I * j * (((k + n) % (2 * n) : ℕ) : ℂ) / ((2 * n : ℕ) : ℂ)) =
      (∑ m ∈ Finset.range (n - 1), x (m + 1) *
          Complex.exp (Complex.I * (2 * Real.pi * ((k : ℝ) - n) / (2 * n) : ℝ) * m)) +
        ∑ m ∈ Finset.range n, (starRingEnd ℂ) (x m) *
          Complex.exp (-(Complex.I * (2 * Real.pi * ((k : ℝ) - n) / (2 * n) : ℝ) * (m + 1))) := by
    obtain ⟨p, rfl⟩ : ∃ p, n = p + 1 := ⟨n - 1, by omega⟩
    rw [show 2 * (p + 1) = (p + 1) + (p + 1) by ring, Finset.sum_range_add, Finset.sum_range_succ]
    have h0 : fftIn (p + 1) x p = 0 := by simp [fftIn]
    rw [h0, zero_mul, add_zero]
    congr 1
    · rw [Nat.add_sub_cancel]
      refine Finset.sum_congr rfl fun m hm => ?_
      have hm := Finset.mem_range.1 hm
      have : fftIn (p + 1) x m = x (m + 1) := by simp [fftIn, hm]
      rw [this]
      have := hph m
      rw [show 2 * (p + 1) = (p + 1) + (p + 1) by ring] at this
      rw [← Int.cast_natCast m, this]
    · rw [← Finset.sum_range_reflect]
      refine Finset.sum_congr rfl fun m hm => ?_
      have hm := Finset.mem_range.1 hm
      have : fftIn (p + 1) x (p + 1 + (p + 1 - 1 - m)) = (starRingEnd ℂ) (x m) := by
        have h1 : ¬ (p + 1 + (p + 1 - 1 - m) < p + 1 - 1) := by omega
        have h2 : ¬ (p + 1 + (p + 1 - 1 - m) = p + 1 - 1) := by omega
        have h3 : 2 * (p + 1) - 1 - (p + 1 + (p + 1 - 1 - m)) = m := by omega
        rw [fftIn, if_neg h1, if_neg h2, h3]
      rw [this]
      congr 1
      have h4 : ((p + 1 + (p + 1 - 1 - m) : ℕ) : ℂ) = (((2 * (p + 1) : ℕ) : ℤ) - ((m : ℤ) + 1) : ℤ) := by
        have : ((p + 1 + (p + 1 - 1 - m) : ℕ) : ℤ) = ((2 * (p + 1) : ℕ) : ℤ) - ((m : ℤ) + 1) := by omega
        rw [← this]; simp
      have := hph ((2 * (p + 1) : ℕ) - ((m : ℤ) + 1))
      rw [show p + 1 + (p + 1) = 2 * (p + 1) by ring, h4, this, Complex.exp_eq_exp_iff_exists_int]
      refine ⟨(k : ℤ) - (p + 1), ?_⟩
      push_cast
      field_simp
      ring
  unfold fftSeries ifft
  rw [hsum]
  generalize (∑ m ∈ Finset.range (n - 1), x (m + 1) *
          Complex.exp (Complex.I * (2 * Real.pi * ((k : ℝ) - n) / (2 * n) : ℝ) * m)) +
        ∑ m ∈ Finset.range n, (starRingEnd ℂ) (x m) *
          Complex.exp (-(Complex.I * (2 * Real.pi * ((k : ℝ) - n) / (2 * n) : ℝ) * (m + 1))) = z
  have hr : (n : ℝ) ≠ 0 := by exact_mod_cast hn.ne'
  have : z / ((2 * n : ℕ) : ℂ) = z * (((2 * n : ℝ)⁻¹ : ℝ) : ℂ) := by push_cast; rw [div_eq_mul_inv]
  rw [this, Complex.re_mul_ofReal]
  field_simp

/-- **C43, FFT violated.**  The series is not the inverse Fourier sum of the response: with the response
1 at the only frequency it gives half of it. -/
theorem C43_fft_violated (dfreq : ℝ) (h : dfreq ≠ 0) :
    fftSeries 1 dfreq (fun _ => 1) 1 ≠ inverseSum 1 dfreq (fun _ => 1) 0 := by
  rw [C43_fft 1 one_pos]
  simp [inverseSum]
  intro h'
  exact h (by linarith)

/-- At time zero, the difference is the first frequency: half of it is missing. -/
theorem C43_fft_zero_time (n : ℕ) (hn : 0 < n) (dfreq : ℝ) (x : ℕ → ℂ) :
    fftSeries n dfreq x n = inverseSum n dfreq x 0 - dfreq * (x 0).re := by
  obtain ⟨p, rfl⟩ : ∃ p, n = p + 1 := ⟨n - 1, by omega⟩
  rw [C43_fft (p + 1) hn]
  simp only [sub_self, mul_zero, zero_div, Complex.ofReal_zero, zero_mul, neg_zero, Complex.exp_zero, mul_one,
    inverseSum, Nat.add_sub_cancel, Complex.add_re, Complex.re_sum, Complex.conj_re]
  rw [Finset.sum_range_succ' (fun m => (x m).re) p]
  ring

/-! ## FFTLog -/

/-- Entry `k` of the packed real Fourier coefficients (length `n`) after multiplication of the coefficients
by `U`. -/
noncomputable def packedMul (n : ℕ) (U : ℕ → ℂ) (a : ℕ → ℝ) (k : ℕ) : ℝ :=
  if k = 0 then a 0 * (U 0).re
  else if n % 2 = 0 ∧ k = n - 1 then a k * (U (n / 2)).re
  else
    let z : ℂ := (⟨a (2 * ((k + 1) / 2) - 1), a (2 * ((k + 1) / 2))⟩ : ℂ) * U ((k + 1) / 2)
    if k % 2 = 1 then z.re else z.im

/-- The factors of the unbiased transform. -/
noncomputable def unbiased (arg : ℕ → ℝ) (m : ℕ) : ℂ := if m = 0 then 1 else ⟨Real.cos (arg m), Real.sin (arg m)⟩

/-- The factors of the biased transform. -/
noncomputable def biased (amp0 arg0 : ℝ) (amp arg : ℕ → ℝ) (m : ℕ) : ℂ :=
  if m = 0 then ⟨amp0 * Real.cos arg0, amp0 * Real.sin arg0⟩
  else ⟨amp m * Real.cos (arg m), amp m * Real.sin (arg m)⟩

/-- **C43, FFTLog, unbiased and even.**  All coefficients are multiplied by their factor. -/
theorem C43_fftlog_partial (n : ℕ) (hn : n % 2 = 0) (h2 : 2 ≤ n) (arg : ℕ → ℝ) (a : ℕ → ℝ) (k : ℕ)
    (hk : k < n) : mulUnbiased n arg a k = packedMul n (unbiased arg) a k := by
  unfold mulUnbiased packedMul
  by_cases h0 : k = 0
  · subst h0
    have : ¬ (0 = n - 1) := by omega
    simp [this, unbiased]
  · rw [if_neg h0]
    have hm : (k + 1) / 2 ≠ 0 := by omega
    by_cases hl : n % 2 = 0 ∧ k = n - 1
    · have : n / 2 ≠ 0 := by omega
      simp only [if_pos hl, unbiased, if_neg this]
    · simp only [if_neg hl]
      rw [if_pos (by omega), unbiased, if_neg hm]
      split_ifs <;> simp [Complex.mul_re, Complex.mul_im]
      

/-- **C43, FFTLog violated for odd lengths.**  The last coefficient of an odd length is not multiplied. -/
theorem C43_fftlog_odd_violated (p : ℕ) : ∃ (arg : ℕ → ℝ) (a : ℕ → ℝ),
    mulUnbiased (2 * p + 3) arg a (2 * p + 1) ≠ packedMul (2 * p + 3) (unbiased arg) a (2 * p + 1) := by
  refine ⟨fun _ => Real.pi, fun _ => 1, ?_⟩
  have h1 : ¬ ((2 * p + 3) % 2 = 0 ∧ 2 * p + 1 = 2 * p + 3 - 1) := by omega
  have h2 : (2 * p + 1 + 1) / 2 = p + 1 := by omega
  have h3 : ¬ (1 ≤ p + 1 ∧ p + 1 < (2 * p + 3) / 2) := by omega
  have h4 : (2 * p + 1) % 2 = 1 := by omega
  have h5 : p + 1 ≠ 0 := by omega
  have h6 : 2 * p + 1 ≠ 0 := by omega
  simp only [mulUnbiased, packedMul, if_neg h1, h2, if_neg h3, if_pos h4, unbiased, if_neg h5, if_neg h6]
  simp [Complex.mul_re]
  norm_num

/-- **C43, FFTLog, biased and even.**  All coefficients but the last are multiplied by their factor. -/
theorem C43_fftlog_biased_partial (n : ℕ) (hn : n % 2 = 0) (amp0 arg0 : ℝ) (amp arg : ℕ → ℝ) (a : ℕ → ℝ)
    (k : ℕ) (hk : k < n - 1) :
    mulBiased n amp0 arg0 amp arg a k = packedMul n (biased amp0 arg0 amp arg) a k := by
  unfold mulBiased packedMul
  have hl : ¬ (n % 2 = 0 ∧ k = n - 1) := by omega
  by_cases h0 : k = 0
  · subst h0
    simp only [if_neg hl, if_true, biased]
  · have hm : (k + 1) / 2 ≠ 0 := by omega
    simp only [if_neg h0, if_neg hl]
    rw [if_pos (by omega), biased, if_neg hm]
    split_ifs <;> simp [Complex.mul_re, Complex.mul_im] <;> ring

/-- **C43, FFTLog violated for the last coefficient of the biased transform.**  For every even length from
8 on it is multiplied by the factor of another coefficient. -/
theorem C43_fftlog_biased_violated (p : ℕ) : ∃ (amp arg : ℕ → ℝ) (a : ℕ → ℝ),
    mulBiased (2 * p + 8) 1 0 amp arg a (2 * p + 7) ≠
      packedMul (2 * p + 8) (biased 1 0 amp arg) a (2 * p + 7) := by
  refine ⟨fun _ => 1, fun m => if m = p + 1 then Real.pi else 0, fun _ => 1, ?_⟩
  have h1 : (2 * p + 8) % 2 = 0 ∧ 2 * p + 7 = 2 * p + 8 - 1 := by omega
  have h2 : (2 * p + 8) / 2 = p + 4 := by omega
  have h3 : 4 ≤ p + 4 := by omega
  have h4 : p + 4 - 3 = p + 1 := by omega
  have h5 : p + 4 ≠ 0 := by omega
  have h6 : 2 * p + 7 ≠ 0 := by omega
  have h7 : p + 4 ≠ p + 1 := by omega
  simp only [mulBiased, packedMul, if_pos h1, h2, if_pos h3, h4, biased, if_neg h5, if_neg h6, if_neg h7,
    if_true]
  norm_num

/-! ## FFTLog: frequencies and times -/

/-- **C43, reciprocity.**  The times are the reciprocals of the angular frequencies, in opposite order and
times `kr`. -/
theorem C43_reciprocal (R : Rounding) (phase : ℝ → ℝ) (rmin rmax : ℝ) (n j : ℕ) (hj : j < n) :
    2 * Real.pi * (getInput R phase rmin rmax n).freq j * (getInput R phase rmin rmax n).tcalc (n - 1 - j) =
      (getInput R phase rmin rmax n).kr := by
  have hp : (2 * Real.pi : ℝ) ≠ 0 := by positivity
  simp only [getInput, ten]
  rw [mul_div_cancel₀ _ hp, ← Real.rpow_add (by norm_num)]
  have h1 : ((n - 1 - j : ℕ) : ℝ) = (n : ℝ) - 1 - j := by
    rw [Nat.cast_sub (by omega), Nat.cast_sub (by omega)]; simp
  rw [h1]
  generalize hK : Real.exp _ = K
  have hK0 : 0 < K := by rw [← hK]; positivity
  rw [show (rmin + rmax) / 2 + ((j : ℝ) + 1 - ((n : ℝ) + 1) / 2) * ((rmax - rmin) / n) +
      (Real.logb 10 K - (rmin + rmax) / 2 + ((n : ℝ) - 1 - j + 1 - ((n : ℝ) + 1) / 2) * ((rmax - rmin) / n)) =
      Real.logb 10 K by ring]
  exact Real.rpow_logb (by norm_num) (by norm_num) hK0

/-- **C43, low ringing.**  The adjustment of `kr` is at most half a step. -/
theorem C43_kr (R : Rounding) (phase : ℝ → ℝ) (rmin rmax : ℝ) (n : ℕ) (h : rmin ≤ rmax) :
    |Real.logb 10 (getInput R phase rmin rmax n).kr| ≤ (rmax - rmin) / n / 2 := by
  have hl : (0 : ℝ) < Real.log 10 := Real.log_pos (by norm_num)
  simp only [getInput, Real.logb, Real.log_exp]
  set d := (rmax - rmin) / (n : ℝ) with hd
  have hd0 : 0 ≤ d := div_nonneg (by linarith) (by positivity)
  set x := Real.log 2 / (d * Real.log 10) + phase (d * Real.log 10) / Real.pi
  rw [← mul_assoc, mul_div_cancel_right₀ _ hl.ne', abs_mul, abs_of_nonneg hd0]
  have := R.near x
  nlinarith

/-- **C43, the requested times are covered.**  If a step is not longer than the decades added on both
sides, the times of FFTLog enclose all requested times, so that nothing is extrapolated. -/
theorem C43_cover (R : Rounding) (phase : ℝ → ℝ) (tmin tmax add0 add1 : ℝ) (n : ℕ) (hn : 0 < n)
    (h0 : 0 < tmin) (h1 : 0 < tmax) (hle : Real.logb 10 (1 / tmax) + add0 ≤ Real.logb 10 (1 / tmin) + add1)
    (hs0 : (Real.logb 10 (1 / tmin) + add1 - (Real.logb 10 (1 / tmax) + add0)) / n ≤ -add0)
    (hs1 : (Real.logb 10 (1 / tmin) + add1 - (Real.logb 10 (1 / tmax) + add0)) / n ≤ add1) :
    (getInput R phase (Real.logb 10 (1 / tmax) + add0) (Real.logb 10 (1 / tmin) + add1) n).tcalc 0 ≤ tmin ∧
    tmax ≤ (getInput R phase (Real.logb 10 (1 / tmax) + add0) (Real.logb 10 (1 / tmin) + add1) n).tcalc
      (n - 1) := by
  have hkr := abs_le.1 (C43_kr R phase _ _ n hle)
  have hn' : (n : ℝ) ≠ 0 := by exact_mod_cast hn.ne'
  have e0 : tmin = ten (-Real.logb 10 (1 / tmin)) := by
    rw [ten, one_div, Real.logb_inv, neg_neg, Real.rpow_logb (by norm_num) (by norm_num) h0]
  have e1 : tmax = ten (-Real.logb 10 (1 / tmax)) := by
    rw [ten, one_div, Real.logb_inv, neg_neg, Real.rpow_logb (by norm_num) (by norm_num) h1]
  generalize Real.logb 10 (1 / tmin) = b at *
  generalize Real.logb 10 (1 / tmax) = a at *
  set d := (b + add1 - (a + add0)) / (n : ℝ) with hd
  have hdn : d * n = b + add1 - (a + add0) := by rw [hd]; field_simp
  have hmono : ∀ x y : ℝ, x ≤ y → ten x ≤ ten y := fun x y h =>
    Real.rpow_le_rpow_of_exponent_le (by norm_num) h
  have hc : ((n - 1 : ℕ) : ℝ) = (n : ℝ) - 1 := by rw [Nat.cast_sub hn]; simp
  simp only [getInput] at hkr ⊢
  rw [← hd] at hkr ⊢
  generalize Real.logb 10 (Real.exp _) = L at *
  constructor
  · rw [e0]
    refine hmono _ _ ?_
    push_cast
    nlinarith
  · rw [e1]
    refine hmono _ _ ?_
    rw [hc]
    nlinarith

/-! ## Examples -/

/-- Rounding to the nearest integer. -/
noncomputable def nearest : Rounding := ⟨round, abs_sub_round⟩

/-- Length 4: the second coefficient is turned. -/
example (arg a : ℕ → ℝ) : mulUnbiased 4 arg a 1 =
    a 1 * Real.cos (arg 1) - a 2 * Real.sin (arg 1) := by simp [mulUnbiased]

/-- Length 5: the last coefficient is left as it is. -/
example (arg a : ℕ → ℝ) : mulUnbiased 5 arg a 3 = a 3 := by simp [mulUnbiased]

/-- Length 10, biased: the last coefficient gets the factor of index 2 instead of 5. -/
example (amp arg a : ℕ → ℝ) : mulBiased 10 1 0 amp arg a 9 = a 9 * (Real.cos (arg 2) * amp 2) := by
  simp [mulBiased]

/-- One time, default decades, ten points per decade: the hypotheses of the cover hold. -/
example (phase : ℝ → ℝ) :
    (getInput nearest phase (Real.logb 10 (1 / 1) + -2) (Real.logb 10 (1 / 1) + 1) 30).tcalc 0 ≤ 1 ∧
    1 ≤ (getInput nearest phase (Real.logb 10 (1 / 1) + -2) (Real.logb 10 (1 / 1) + 1) 30).tcalc 29 :=
  C43_cover nearest phase 1 1 (-2) 1 30 (by norm_num) (by norm_num) (by norm_num) (by norm_num)
    (by norm_num) (by norm_num)

/-- The padding keeps the response and goes from its last value to zero in equal steps. -/
theorem C43_pad (nfreq ntot : ℕ) (x : ℕ → ℂ) (h0 : 0 < nfreq) (h : nfreq < ntot) :
    (∀ k, k < nfreq → padRamp nfreq ntot x k = x k) ∧ padRamp nfreq ntot x (ntot - 1) = 0 ∧
    ∀ k, nfreq ≤ k + 1 → k + 1 < ntot →
      padRamp nfreq ntot x (k + 1) - padRamp nfreq ntot x k = -(x (nfreq - 1) / (ntot - nfreq)) := by
  have hd : (ntot : ℂ) - nfreq ≠ 0 := by
    rw [sub_ne_zero]; exact_mod_cast h.ne'
  refine ⟨fun k hk => by rw [padRamp, if_pos hk], ?_, fun k h1 h2 => ?_⟩
  · rw [padRamp, if_neg (by omega), Nat.cast_sub (by omega)]
    rw [show ((ntot : ℂ) - ((1 : ℕ) : ℂ) - nfreq + 1) = ntot - nfreq by push_cast; ring, div_self hd, sub_self, mul_zero]
  · rw [padRamp, if_neg (by omega), padRamp]
    split_ifs with hk
    · have : k = nfreq - 1 := by omega
      subst this
      rw [show nfreq - 1 + 1 = nfreq by omega]
      field_simp
      ring
    · push_cast
      field_simp
      ring

/-- Two frequencies padded to five. -/
example (x : ℕ → ℂ) : padRamp 2 5 x 2 = x 1 * (2 / 3) := by
  rw [padRamp, if_neg (by norm_num)]; norm_num

/-- Two frequencies at time zero. -/
example (x : ℕ → ℂ) : fftSeries 2 1 x 2 = (x 0).re + 2 * (x 1).re := by
  rw [C43_fft_zero_time 2 (by norm_num)]
  simp [inverseSum, Finset.sum_range_succ]
  ring

end Verif.Props
