import Verif.Lemmas.AirInt
import Verif.Lemmas.Subord
import Verif.Lemmas.Passive
import Mathlib.Analysis.SpecialFunctions.ImproperIntegrals

/-!
# Laplace transforms of the impulse response of the airwave
-/

namespace Verif.Lemmas
open Verif.Spec MeasureTheory Set Filter Topology

/-! ## Continuation for densities of either sign -/

theorem hasLap_ext' {w : ℝ → ℝ} (hw : IntegrableOn w (Ioi 0))
    {L : ℂ → ℂ} (hL : DifferentiableOn ℂ L {s : ℂ | 0 < s.re}) (hc : ∀ s : ℂ, 0 ≤ s.re → s ≠ 0 →
      ContinuousAt L s)
    (hr : ∀ s : ℝ, 0 < s → ∫ t in Ioi (0 : ℝ), Complex.exp (-(s * t)) * (w t : ℂ) = L s) {s : ℂ}
    (h : 0 ≤ s.re) (h0 : s ≠ 0) : HasLap w s (L s) := by
  set F : ℂ → ℂ := fun s => ∫ t in Ioi (0 : ℝ), Complex.exp (-s * t) * (w t : ℂ)
  have hwn : IntegrableOn (fun t => ‖w t‖) (Ioi 0) := hw.norm
  have bound : ∀ s : ℂ, 0 ≤ s.re → ∀ t : ℝ, 0 < t → ‖Complex.exp (-s * t) * (w t : ℂ)‖ ≤ ‖w t‖ := by
    intro s hs t ht
    rw [norm_mul, Complex.norm_exp, Complex.norm_real]
    have : (-s * t : ℂ).re = -(s.re * t) := by simp
    rw [this]
    have h1 : Real.exp (-(s.re * t)) ≤ 1 := by
      rw [Real.exp_le_one_iff]; have := mul_nonneg hs ht.le; linarith
    nlinarith [norm_nonneg (w t)]
  have hwm : AEStronglyMeasurable (fun t => (w t : ℂ)) (volume.restrict (Ioi 0)) :=
    Complex.continuous_ofReal.comp_aestronglyMeasurable hw.1
  have hmeas : ∀ s : ℂ, AEStronglyMeasurable (fun t : ℝ => Complex.exp (-s * t) * (w t : ℂ))
      (volume.restrict (Ioi 0)) := fun s =>
    (by fun_prop : Continuous fun t : ℝ => Complex.exp (-s * t)).aestronglyMeasurable.mul hwm
  have hint : ∀ s : ℂ, 0 ≤ s.re → IntegrableOn (fun t : ℝ => Complex.exp (-s * t) * (w t : ℂ)) (Ioi 0) :=
    fun s hs => Integrable.mono' hwn (hmeas s)
      ((ae_restrict_mem measurableSet_Ioi).mono fun t ht => bound s hs t ht)
  have hcont : ∀ s : ℂ, 0 ≤ s.re → ContinuousWithinAt F {z : ℂ | 0 ≤ z.re} s := by
    intro s hs
    refine continuousWithinAt_of_dominated (bound := fun t => ‖w t‖) ?_ ?_ hwn ?_
    · exact Eventually.of_forall fun z => hmeas z
    · filter_upwards [self_mem_nhdsWithin] with z hz
      refine (ae_restrict_mem measurableSet_Ioi).mono fun t ht => bound z hz t ht
    · refine Eventually.of_forall fun t => ?_
      exact (by fun_prop : Continuous fun z : ℂ => Complex.exp (-z * t) * (w t : ℂ)).continuousWithinAt
  have heq : ∀ z : ℂ, 0 < z.re → F z = L z := by
    intro z hz
    have := exp_cont (φ := fun t => t) continuousOn_id (fun t ht => ht) hwm (fun δ hδ => ?_) hL hr hz
    · rw [← this]
      simp only [F, neg_mul]
    · have := (hint (δ : ℂ) (by simpa using hδ.le)).norm
      refine this.congr (Eventually.of_forall fun t => ?_)
      simp only
      rw [norm_mul, Complex.norm_exp]
      simp
  have hsq : Tendsto (fun n : ℕ => s + ((1 / ((n : ℝ) + 1) : ℝ) : ℂ)) atTop (𝓝 s) := by
    have := ((Complex.continuous_ofReal.tendsto _).comp
      (tendsto_one_div_add_atTop_nhds_zero_nat (𝕜 := ℝ))).const_add s
    simpa using this
  have hmem : ∀ n : ℕ, 0 < (s + ((1 / ((n : ℝ) + 1) : ℝ) : ℂ)).re := fun n => by
    have : (0 : ℝ) < 1 / ((n : ℝ) + 1) := by positivity
    rw [Complex.add_re, Complex.ofReal_re]; linarith
  have t1 : Tendsto (fun n : ℕ => F (s + ((1 / ((n : ℝ) + 1) : ℝ) : ℂ))) atTop (𝓝 (F s)) :=
    (hcont s h).tendsto.comp (tendsto_nhdsWithin_iff.2
      ⟨hsq, Eventually.of_forall fun n => (hmem n).le⟩)
  have t2 : Tendsto (fun n : ℕ => L (s + ((1 / ((n : ℝ) + 1) : ℝ) : ℂ))) atTop (𝓝 (L s)) :=
    (hc s h h0).tendsto.comp hsq
  exact ⟨hint s h, tendsto_nhds_unique t1 (t2.congr fun n => (heq _ (hmem n)).symm)⟩

/-! ## The scaled functions on the positive half line -/

/-- `exp(-x) I_n(x)` as a real number. -/
noncomputable def rive (n : ℕ) (x : ℝ) : ℝ := (ives n x).re

theorem ives_real {n : ℕ} (hn : n ≤ 1) (x : ℝ) :
    ives n x = ((1 / (2 * Real.pi) * ∫ θ in (0 : ℝ)..(2 * Real.pi),
      Real.cos θ ^ n * Real.exp (x * (Real.cos θ - 1)) : ℝ) : ℂ) := by
  have e : ∀ n, imom n (x : ℂ) * Complex.exp (-(x : ℂ)) =
      ((∫ θ in (0 : ℝ)..(2 * Real.pi), Real.cos θ ^ n * Real.exp (x * (Real.cos θ - 1)) : ℝ) : ℂ) := by
    intro n
    rw [← intervalIntegral.integral_ofReal]
    unfold imom iex
    rw [← intervalIntegral.integral_mul_const]
    congr 1; funext θ; push_cast
    rw [mul_assoc, ← Complex.exp_add]
    congr 2; ring
  have : besselI n (x : ℂ) = 1 / (2 * (Real.pi : ℂ)) * imom n x := by
    interval_cases n
    · exact besselI_zero' _
    · exact besselI_one' _
  unfold ives
  rw [this, Complex.ofReal_mul, ← e]
  push_cast; ring

theorem ives_rive {n : ℕ} (hn : n ≤ 1) (x : ℝ) : ives n x = (rive n x : ℂ) := by
  unfold rive
  rw [ives_real hn, Complex.ofReal_re]

theorem rive_cont {n : ℕ} (hn : n ≤ 1) : Continuous (rive n) :=
  Complex.continuous_re.comp (ives_cont hn)

theorem rive_le {n : ℕ} (hn : n ≤ 1) {x : ℝ} (hx : 0 ≤ x) : |rive n x| ≤ 1 := by
  unfold rive
  rw [ives_real hn, Complex.ofReal_re]
  have hp := Real.pi_pos
  have := intervalIntegral.norm_integral_le_of_norm_le_const (a := 0) (b := 2 * Real.pi) (C := 1)
    (f := fun θ => Real.cos θ ^ n * Real.exp (x * (Real.cos θ - 1))) fun θ _ => by
      rw [norm_mul, norm_pow]
      have h1 : ‖Real.cos θ‖ ^ n ≤ 1 := pow_le_one₀ (norm_nonneg _) (Real.abs_cos_le_one θ)
      have h2 : ‖Real.exp (x * (Real.cos θ - 1))‖ ≤ 1 := by
        rw [Real.norm_of_nonneg (Real.exp_pos _).le, Real.exp_le_one_iff]
        have := Real.cos_le_one θ
        nlinarith
      have h3 : 0 ≤ ‖Real.exp (x * (Real.cos θ - 1))‖ := norm_nonneg _
      nlinarith
  rw [Real.norm_eq_abs, sub_zero, abs_of_pos (by positivity : 0 < 2 * Real.pi)] at this
  rw [abs_mul, abs_of_pos (by positivity : 0 < 1 / (2 * Real.pi)), one_div_mul_eq_div, div_le_one (by positivity)]
  linarith

theorem et_int {n : ℕ} (hn : 2 ≤ n) {τ : ℝ} (hτ : 0 < τ) :
    IntegrableOn (fun t : ℝ => Real.exp (-τ / t) / t ^ n) (Ioi 0) := by
  have hb : IntegrableOn (fun t : ℝ => 2 * (1 + n.factorial / τ ^ n) * (1 + t ^ 2)⁻¹) (Ioi 0) :=
    (integrable_inv_one_add_sq.const_mul _).integrableOn
  refine hb.mono' ?_ ?_
  · refine ContinuousOn.aestronglyMeasurable ?_ measurableSet_Ioi
    refine ContinuousOn.div (ContinuousOn.rexp (ContinuousOn.div (by fun_prop) (by fun_prop) ?_)) (by fun_prop) ?_
    · exact fun t ht => (ne_of_gt ht : t ≠ 0)
    · exact fun t ht => pow_ne_zero _ (ne_of_gt ht : t ≠ 0)
  · refine (ae_restrict_mem measurableSet_Ioi).mono fun t ht => ?_
    have ht : 0 < t := ht
    rw [Real.norm_of_nonneg (by positivity)]
    rcases le_or_gt 1 t with h | h
    · have e1 : Real.exp (-τ / t) ≤ 1 := by
        rw [Real.exp_le_one_iff, neg_div]; have : 0 < τ / t := by positivity
        linarith
      have e2 : t ^ 2 ≤ t ^ n := pow_le_pow_right₀ h hn
      have e3 : Real.exp (-τ / t) / t ^ n ≤ 1 / t ^ 2 := by gcongr
      have e4 : 1 / t ^ 2 ≤ 2 * (1 + t ^ 2)⁻¹ := by
        rw [← div_eq_mul_inv, div_le_div_iff₀ (by positivity) (by positivity)]
        nlinarith
      have e5 : 2 * (1 + t ^ 2)⁻¹ ≤ 2 * (1 + n.factorial / τ ^ n) * (1 + t ^ 2)⁻¹ := by
        have : (0 : ℝ) ≤ n.factorial / τ ^ n := by positivity
        have h' : 0 < (1 + t ^ 2)⁻¹ := by positivity
        nlinarith
      linarith
    · have e1 : (τ / t) ^ n / n.factorial ≤ Real.exp (τ / t) := Real.pow_div_factorial_le_exp _ (by positivity) n
      have e2 : Real.exp (-τ / t) / t ^ n ≤ n.factorial / τ ^ n := by
        rw [neg_div, Real.exp_neg, inv_eq_one_div, div_div, div_le_div_iff₀ (by positivity) (by positivity)]
        rw [div_pow, div_div, div_le_iff₀ (by positivity)] at e1
        nlinarith
      have e3 : (1 : ℝ) ≤ 2 * (1 + t ^ 2)⁻¹ := by
        rw [← div_eq_mul_inv, le_div_iff₀ (by positivity)]; nlinarith
      have : (0 : ℝ) ≤ n.factorial / τ ^ n := by positivity
      nlinarith

/-! ## The two integrals for real `s` -/

section
variable {γ z r : ℝ}

theorem air_A1 (hγ : 0 < γ) (hz : 0 < z) (hr : 0 < r) :
    (∫ t in Ioi (0 : ℝ), Complex.exp (-((z / 2 : ℂ) ^ 2) / t - γ ^ 2 * t) / (t : ℂ) ^ 3 *
      (ives 0 (r ^ 2 / (8 * t)) - ives 1 (r ^ 2 / (8 * t)))) = 16 / z * BC γ z r := by
  have hsp : (Real.sqrt Real.pi : ℂ) ≠ 0 := by exact_mod_cast (Real.sqrt_pos.2 Real.pi_pos).ne'
  have hzc : (z : ℂ) ≠ 0 := by exact_mod_cast hz.ne'
  have hrc : (r : ℂ) ≠ 0 := by exact_mod_cast hr.ne'
  have hg2 : 0 < (1 * (γ : ℂ) ^ 2).re := by
    rw [one_mul, ← Complex.ofReal_pow, Complex.ofReal_re]; positivity
  have h := (fub (a := 1) (g := (γ : ℂ) ^ 2) (c := 1) (by simp) hg2 (half_sq_re hz) 1 1 (cJ1 r 1) (bJ1 r 1)).2
  have e1 : (∫ l in Ioi (0 : ℝ), (l : ℂ) ^ 1 * besselJ1 (l * r) *
      ∫ t in Ioi (0 : ℝ), kz 1 (1 * (1 * (l : ℂ) ^ 2 + (γ : ℂ) ^ 2)) ((z / 2 : ℂ) ^ 2) t) =
      2 * (Real.sqrt Real.pi : ℂ) / z * (r * BC γ z r) := by
    rw [← int_A1 hγ hz hr, ← integral_const_mul]
    refine integral_congr_ae (Eventually.of_forall fun l => ?_)
    simp only
    rw [(gam_kz hγ hz l).2]
    unfold eg
    field_simp
  rw [e1] at h
  have e2 : (∫ t in Ioi (0 : ℝ), kz 1 (1 * (γ : ℂ) ^ 2) ((z / 2 : ℂ) ^ 2) t *
      ∫ l in Ioi (0 : ℝ), (l : ℂ) ^ 1 * besselJ1 (l * r) * gau (1 * 1 * t) l) =
      (Real.sqrt Real.pi : ℂ) * r / 8 * ∫ t in Ioi (0 : ℝ),
        Complex.exp (-((z / 2 : ℂ) ^ 2) / t - γ ^ 2 * t) / (t : ℂ) ^ 3 *
      (ives 0 (r ^ 2 / (8 * t)) - ives 1 (r ^ 2 / (8 * t))) := by
    rw [← integral_const_mul]
    refine setIntegral_congr_fun measurableSet_Ioi fun t ht => ?_
    have ht : 0 < t := ht
    have htc : (t : ℂ) ≠ 0 := by exact_mod_cast ht.ne'
    have hst : ((Real.sqrt t : ℝ) : ℂ) ≠ 0 := by exact_mod_cast (Real.sqrt_pos.2 ht).ne'
    have hss : ((Real.sqrt t : ℝ) : ℂ) ^ 2 = t := by exact_mod_cast Real.sq_sqrt ht.le
    simp only [one_mul]
    rw [gau_I1 ht r]
    unfold kz
    generalize ives 0 (r ^ 2 / (8 * t)) = i0
    generalize ives 1 (r ^ 2 / (8 * t)) = i1
    generalize Complex.exp _ = E
    field_simp
    rw [hss]; try ring
  rw [e2] at h
  clear e1 e2
  generalize (∫ t in Ioi (0 : ℝ), (_ : ℂ)) = J at h ⊢
  generalize BC (γ : ℂ) z r = b at *
  field_simp at h ⊢
  linear_combination -h

theorem air_A0 (hγ : 0 < γ) (hz : 0 < z) (hr : 0 < r) :
    (∫ t in Ioi (0 : ℝ), Complex.exp (-((z / 2 : ℂ) ^ 2) / t - γ ^ 2 * t) / (t : ℂ) ^ 3 *
      (ives 0 (r ^ 2 / (8 * t)) - 2 * (r ^ 2 / (8 * t) : ℝ) *
        (ives 0 (r ^ 2 / (8 * t)) - ives 1 (r ^ 2 / (8 * t))))) =
      8 / z * (2 * BC γ z r + r ^ 2 * CC γ z r) := by
  have hsp : (Real.sqrt Real.pi : ℂ) ≠ 0 := by exact_mod_cast (Real.sqrt_pos.2 Real.pi_pos).ne'
  have hzc : (z : ℂ) ≠ 0 := by exact_mod_cast hz.ne'
  have hrc : (r : ℂ) ≠ 0 := by exact_mod_cast hr.ne'
  have hg2 : 0 < (1 * (γ : ℂ) ^ 2).re := by
    rw [one_mul, ← Complex.ofReal_pow, Complex.ofReal_re]; positivity
  have h := (fub (a := 1) (g := (γ : ℂ) ^ 2) (c := 1) (by simp) hg2 (half_sq_re hz) 1 2 (cJ0 r 2) (bJ0 r 2)).2
  have e1 : (∫ l in Ioi (0 : ℝ), (l : ℂ) ^ 2 * besselJ0 (l * r) *
      ∫ t in Ioi (0 : ℝ), kz 1 (1 * (1 * (l : ℂ) ^ 2 + (γ : ℂ) ^ 2)) ((z / 2 : ℂ) ^ 2) t) =
      2 * (Real.sqrt Real.pi : ℂ) / z * (2 * BC γ z r + r ^ 2 * CC γ z r) := by
    rw [← int_A0 hγ hz hr, ← integral_const_mul]
    refine integral_congr_ae (Eventually.of_forall fun l => ?_)
    simp only
    rw [(gam_kz hγ hz l).2]
    unfold eg
    field_simp
  rw [e1] at h
  have e2 : (∫ t in Ioi (0 : ℝ), kz 1 (1 * (γ : ℂ) ^ 2) ((z / 2 : ℂ) ^ 2) t *
      ∫ l in Ioi (0 : ℝ), (l : ℂ) ^ 2 * besselJ0 (l * r) * gau (1 * 1 * t) l) =
      (Real.sqrt Real.pi : ℂ) / 4 * ∫ t in Ioi (0 : ℝ),
        Complex.exp (-((z / 2 : ℂ) ^ 2) / t - γ ^ 2 * t) / (t : ℂ) ^ 3 *
      (ives 0 (r ^ 2 / (8 * t)) - 2 * (r ^ 2 / (8 * t) : ℝ) *
        (ives 0 (r ^ 2 / (8 * t)) - ives 1 (r ^ 2 / (8 * t)))) := by
    rw [← integral_const_mul]
    refine setIntegral_congr_fun measurableSet_Ioi fun t ht => ?_
    have ht : 0 < t := ht
    have htc : (t : ℂ) ≠ 0 := by exact_mod_cast ht.ne'
    have hst : ((Real.sqrt t : ℝ) : ℂ) ≠ 0 := by exact_mod_cast (Real.sqrt_pos.2 ht).ne'
    have hss : ((Real.sqrt t : ℝ) : ℂ) ^ 2 = t := by exact_mod_cast Real.sq_sqrt ht.le
    simp only [one_mul]
    rw [gau_I2 ht hr]
    unfold kz
    generalize ives 0 (r ^ 2 / (8 * t)) = i0
    generalize ives 1 (r ^ 2 / (8 * t)) = i1
    generalize Complex.exp _ = E
    generalize ((r ^ 2 / (8 * t) : ℝ) : ℂ) = X
    field_simp
    rw [hss]; try ring
  rw [e2] at h
  clear e1 e2
  generalize (∫ t in Ioi (0 : ℝ), (_ : ℂ)) = J at h ⊢
  generalize BC (γ : ℂ) z r = b at *
  generalize CC (γ : ℂ) z r = c at *
  field_simp at h ⊢
  linear_combination -h

end

/-! ## Dependence on `γ` -/

section
variable {z r : ℝ} {γ : ℂ}

theorem aA_dγ (z r : ℝ) (γ : ℂ) : DifferentiableAt ℂ (fun γ => aA γ z r) γ := by unfold aA; fun_prop
theorem bA_dγ (z r : ℝ) (γ : ℂ) : DifferentiableAt ℂ (fun γ => bA γ z r) γ := by unfold bA; fun_prop

theorem Ia_dγ {n : ℕ} (hn : n ≤ 1) (z r : ℝ) (γ : ℂ) :
    DifferentiableAt ℂ (fun γ => besselI n (aA γ z r)) γ :=
  DifferentiableAt.comp γ (g := besselI n) (f := fun γ => aA γ z r) (besselI_diff n hn (aA γ z r)) (aA_dγ z r γ)

theorem Kb_dγ {n : ℕ} (hn : n ≤ 1) (hγ : 0 < γ.re) (hz : 0 < z) (r : ℝ) :
    DifferentiableAt ℂ (fun γ => besselK n (bA γ z r)) γ :=
  DifferentiableAt.comp γ (g := besselK n) (f := fun γ => bA γ z r) (besselK_diff n hn (bA_re hγ hz r)) (bA_dγ z r γ)

theorem BC_dγ (hγ : 0 < γ.re) (hz : 0 < z) (r : ℝ) : DifferentiableAt ℂ (fun γ => BC γ z r) γ := by
  have i0 := Ia_dγ (n := 0) (by norm_num) z r γ
  have i1 := Ia_dγ (n := 1) le_rfl z r γ
  have k0 := Kb_dγ (n := 0) (by norm_num) hγ hz r
  have k1 := Kb_dγ (n := 1) le_rfl hγ hz r
  have a := aA_dγ z r γ
  have b := bA_dγ z r γ
  unfold BC qC dC
  fun_prop

theorem CC_dγ (hγ : 0 < γ.re) (hz : 0 < z) (hr : r ≠ 0) : DifferentiableAt ℂ (fun γ => CC γ z r) γ := by
  have i0 := Ia_dγ (n := 0) (by norm_num) z r γ
  have i1 := Ia_dγ (n := 1) le_rfl z r γ
  have k0 := Kb_dγ (n := 0) (by norm_num) hγ hz r
  have k1 := Kb_dγ (n := 1) le_rfl hγ hz r
  have a := aA_dγ z r γ
  have b := bA_dγ z r γ
  have B := BC_dγ hγ hz r
  have ha := ne_zero_of_re_pos (aA_re (z := z) hγ hr)
  have hb := ne_zero_of_re_pos (bA_re hγ hz r)
  have a' := a.inv ha
  have b' := b.inv hb
  unfold CC pC
  simp only [one_div]
  exact (B.const_mul _).add (((differentiableAt_id.pow 3).mul_const _ |>.div_const _).mul
    ((((i1.const_mul 4).mul k0).sub ((i0.const_mul 4).mul k1)).add
      (((i1.const_mul 2).mul k1).mul (a'.add b'))))
end

/-! ## The transforms -/

section
open Verif.Kernel
variable {κ z r : ℝ}

/-- Density of the first integral. -/
noncomputable def w1 (κ z r T : ℝ) : ℝ :=
  Real.exp (-(z ^ 2 / (4 * κ)) / T) / T ^ 3 * (rive 0 (r ^ 2 / (8 * κ) / T) - rive 1 (r ^ 2 / (8 * κ) / T))

/-- Density of the second integral. -/
noncomputable def w0 (κ z r T : ℝ) : ℝ :=
  Real.exp (-(z ^ 2 / (4 * κ)) / T) / T ^ 3 * (rive 0 (r ^ 2 / (8 * κ) / T) -
    2 * (r ^ 2 / (8 * κ) / T) * (rive 0 (r ^ 2 / (8 * κ) / T) - rive 1 (r ^ 2 / (8 * κ) / T)))

theorem ri_cont (c : ℝ) {n : ℕ} (hn : n ≤ 1) : ContinuousOn (fun T : ℝ => rive n (c / T)) (Ioi 0) := by
  refine (rive_cont hn).comp_continuousOn (ContinuousOn.div (by fun_prop) (by fun_prop) ?_)
  exact fun t ht => (ne_of_gt ht : t ≠ 0)

theorem bd_int {n : ℕ} (hn : 2 ≤ n) {τ C : ℝ} (hτ : 0 < τ) {h : ℝ → ℝ} (hh : ContinuousOn h (Ioi 0))
    (hb : ∀ t : ℝ, 0 < t → |h t| ≤ C) :
    IntegrableOn (fun t : ℝ => Real.exp (-τ / t) / t ^ n * h t) (Ioi 0) :=
  Integrable.mul_bdd (c := C) (et_int hn hτ) (hh.aestronglyMeasurable measurableSet_Ioi)
    ((ae_restrict_mem measurableSet_Ioi).mono fun t ht => hb t ht)

theorem diff_le (c : ℝ) (hc : 0 ≤ c) {t : ℝ} (ht : 0 < t) : |rive 0 (c / t) - rive 1 (c / t)| ≤ 2 := by
  have hx : 0 ≤ c / t := by positivity
  have h0 := rive_le (n := 0) (by norm_num) hx
  have h1 := rive_le (n := 1) le_rfl hx
  have := abs_sub (rive 0 (c / t)) (rive 1 (c / t))
  linarith

theorem w1_int (hκ : 0 < κ) (hz : 0 < z) (r : ℝ) : IntegrableOn (w1 κ z r) (Ioi 0) := by
  have hτ : 0 < z ^ 2 / (4 * κ) := by positivity
  have hc : 0 ≤ r ^ 2 / (8 * κ) := by positivity
  exact bd_int (n := 3) (C := 2) (by norm_num) hτ ((ri_cont _ (by norm_num)).sub (ri_cont _ le_rfl))
    fun t ht => diff_le _ hc ht

theorem w0_int (hκ : 0 < κ) (hz : 0 < z) (r : ℝ) : IntegrableOn (w0 κ z r) (Ioi 0) := by
  have hτ : 0 < z ^ 2 / (4 * κ) := by positivity
  have hc : 0 ≤ r ^ 2 / (8 * κ) := by positivity
  have h1 : IntegrableOn (fun t : ℝ => Real.exp (-(z ^ 2 / (4 * κ)) / t) / t ^ 3 *
      rive 0 (r ^ 2 / (8 * κ) / t)) (Ioi 0) :=
    bd_int (n := 3) (C := 1) (by norm_num) hτ (ri_cont _ (by norm_num)) fun t ht =>
      rive_le (by norm_num) (by positivity)
  have h2 : IntegrableOn (fun t : ℝ => Real.exp (-(z ^ 2 / (4 * κ)) / t) / t ^ 4 *
      (rive 0 (r ^ 2 / (8 * κ) / t) - rive 1 (r ^ 2 / (8 * κ) / t))) (Ioi 0) :=
    bd_int (n := 4) (C := 2) (by norm_num) hτ ((ri_cont _ (by norm_num)).sub (ri_cont _ le_rfl))
      fun t ht => diff_le _ hc ht
  have h3 := h1.sub (h2.const_mul (2 * (r ^ 2 / (8 * κ))))
  refine IntegrableOn.congr_fun h3 (fun t ht => ?_) measurableSet_Ioi
  have ht : t ≠ 0 := ne_of_gt ht
  simp only [Pi.sub_apply, w0]
  field_simp

theorem gamma_real (hκ : 0 < κ) {s : ℝ} (hs : 0 < s) :
    csqrt ((s : ℂ) / κ) = (Real.sqrt (s / κ) : ℝ) := by
  rw [← Complex.ofReal_div, csqrt_ofReal (by positivity)]

theorem gamma_re (hκ : 0 < κ) {s : ℂ} (h : 0 ≤ s.re) (h0 : s ≠ 0) : 0 < (csqrt (s / κ)).re := by
  refine csqrt_re_pos ?_
  have h1 : (s / κ).re = s.re / κ := Complex.div_ofReal_re _ _
  have h2 : 0 < ‖s / κ‖ := norm_pos_iff.2 (div_ne_zero h0 (by exact_mod_cast hκ.ne'))
  have h3 : 0 ≤ s.re / κ := by positivity
  linarith

theorem gamma_diff (hκ : 0 < κ) {s : ℂ} (h : 0 ≤ s.re) (h0 : s ≠ 0) :
    DifferentiableAt ℂ (fun s : ℂ => csqrt (s / κ)) s := by
  have h1 : (s / κ).re = s.re / κ := Complex.div_ofReal_re _ _
  have hk : (κ : ℂ) ≠ 0 := by exact_mod_cast hκ.ne'
  refine DifferentiableAt.comp s (g := csqrt) (f := fun s : ℂ => s / κ) (csqrt_diff ?_ (div_ne_zero h0 hk)) (by fun_prop)
  rw [h1]; positivity

/-- Substitution `t = κ T`. -/
theorem scale_int (hκ : 0 < κ) (g : ℝ → ℂ) :
    ∫ T in Ioi (0 : ℝ), (κ : ℂ) ^ 3 * g (κ * T) = (κ : ℂ) ^ 2 * ∫ t in Ioi (0 : ℝ), g t := by
  have hk : (κ : ℂ) ≠ 0 := by exact_mod_cast hκ.ne'
  rw [integral_const_mul, integral_comp_mul_left_Ioi g 0 hκ, mul_zero, Complex.real_smul]
  push_cast
  field_simp

theorem lap_w1 (hκ : 0 < κ) (hz : 0 < z) (hr : 0 < r) {s : ℂ} (h : 0 ≤ s.re) (h0 : s ≠ 0) :
    HasLap (w1 κ z r) s (16 * κ ^ 2 / z * BC (csqrt (s / κ)) z r) := by
  have hd : ∀ s : ℂ, 0 ≤ s.re → s ≠ 0 →
      DifferentiableAt ℂ (fun s : ℂ => 16 * (κ : ℂ) ^ 2 / z * BC (csqrt (s / κ)) z r) s := by
    intro s h h0
    have := DifferentiableAt.comp s (g := fun γ => BC γ z r) (f := fun s : ℂ => csqrt (s / κ))
      (BC_dγ (gamma_re hκ h h0) hz r) (gamma_diff hκ h h0)
    exact this.const_mul _
  refine hasLap_ext' (L := fun s : ℂ => 16 * (κ : ℂ) ^ 2 / z * BC (csqrt (s / κ)) z r) (w1_int hκ hz r)
    (fun s hs => (hd s (le_of_lt hs) (fun e => by rw [e] at hs; simp at hs)).differentiableWithinAt)
    (fun s hs hs0 => (hd s hs hs0).continuousAt) ?_ h h0
  intro s hs
  have hγ : 0 < Real.sqrt (s / κ) := Real.sqrt_pos.2 (by positivity)
  have hγ2 : ((Real.sqrt (s / κ) : ℝ) : ℂ) ^ 2 = s / κ := by
    rw [← Complex.ofReal_pow, Real.sq_sqrt (by positivity)]; push_cast; rfl
  have hk : (κ : ℂ) ≠ 0 := by exact_mod_cast hκ.ne'
  have e := scale_int hκ (fun t => Complex.exp (-((z / 2 : ℂ) ^ 2) / t - (Real.sqrt (s / κ) : ℝ) ^ 2 * t) / (t : ℂ) ^ 3 *
      (ives 0 (r ^ 2 / (8 * t)) - ives 1 (r ^ 2 / (8 * t))))
  rw [air_A1 hγ hz hr] at e
  show _ = 16 * (κ : ℂ) ^ 2 / z * BC (csqrt ((s : ℂ) / κ)) z r
  rw [gamma_real hκ hs, show 16 * (κ : ℂ) ^ 2 / z * BC ((Real.sqrt (s / κ) : ℝ) : ℂ) z r =
    (κ : ℂ) ^ 2 * (16 / z * BC ((Real.sqrt (s / κ) : ℝ) : ℂ) z r) by ring, ← e]
  refine setIntegral_congr_fun measurableSet_Ioi fun T hT => ?_
  have hT : 0 < T := hT
  have hTc : (T : ℂ) ≠ 0 := by exact_mod_cast hT.ne'
  simp only [w1, hγ2]
  rw [show r ^ 2 / (8 * (κ * T)) = r ^ 2 / (8 * κ) / T by field_simp, ives_rive (by norm_num), ives_rive le_rfl]
  push_cast
  have ex : Complex.exp (-((z / 2 : ℂ) ^ 2) / (κ * T) - s / κ * (κ * T)) =
      Complex.exp (-(s * T)) * Complex.exp (-(z ^ 2 / (4 * κ)) / T) := by
    rw [← Complex.exp_add]; congr 1; field_simp; ring
  rw [ex]
  field_simp

theorem lap_w0 (hκ : 0 < κ) (hz : 0 < z) (hr : 0 < r) {s : ℂ} (h : 0 ≤ s.re) (h0 : s ≠ 0) :
    HasLap (w0 κ z r) s (8 * κ ^ 2 / z * (2 * BC (csqrt (s / κ)) z r + r ^ 2 * CC (csqrt (s / κ)) z r)) := by
  have hd : ∀ s : ℂ, 0 ≤ s.re → s ≠ 0 →
      DifferentiableAt ℂ (fun s : ℂ => 8 * (κ : ℂ) ^ 2 / z * (2 * BC (csqrt (s / κ)) z r +
        r ^ 2 * CC (csqrt (s / κ)) z r)) s := by
    intro s h h0
    have h1 := DifferentiableAt.comp s (g := fun γ => BC γ z r) (f := fun s : ℂ => csqrt (s / κ))
      (BC_dγ (gamma_re hκ h h0) hz r) (gamma_diff hκ h h0)
    have h2 := DifferentiableAt.comp s (g := fun γ => CC γ z r) (f := fun s : ℂ => csqrt (s / κ))
      (CC_dγ (gamma_re hκ h h0) hz hr.ne') (gamma_diff hκ h h0)
    exact ((h1.const_mul 2).add (h2.const_mul _)).const_mul _
  refine hasLap_ext' (L := fun s : ℂ => 8 * (κ : ℂ) ^ 2 / z * (2 * BC (csqrt (s / κ)) z r +
        r ^ 2 * CC (csqrt (s / κ)) z r)) (w0_int hκ hz r)
    (fun s hs => (hd s (le_of_lt hs) (fun e => by rw [e] at hs; simp at hs)).differentiableWithinAt)
    (fun s hs hs0 => (hd s hs hs0).continuousAt) ?_ h h0
  intro s hs
  have hγ : 0 < Real.sqrt (s / κ) := Real.sqrt_pos.2 (by positivity)
  have hγ2 : ((Real.sqrt (s / κ) : ℝ) : ℂ) ^ 2 = s / κ := by
    rw [← Complex.ofReal_pow, Real.sq_sqrt (by positivity)]; push_cast; rfl
  have hk : (κ : ℂ) ≠ 0 := by exact_mod_cast hκ.ne'
  have e := scale_int hκ (fun t => Complex.exp (-((z / 2 : ℂ) ^ 2) / t - (Real.sqrt (s / κ) : ℝ) ^ 2 * t) / (t : ℂ) ^ 3 *
      (ives 0 (r ^ 2 / (8 * t)) - 2 * (r ^ 2 / (8 * t) : ℝ) *
        (ives 0 (r ^ 2 / (8 * t)) - ives 1 (r ^ 2 / (8 * t)))))
  rw [air_A0 hγ hz hr] at e
  show _ = 8 * (κ : ℂ) ^ 2 / z * (2 * BC (csqrt ((s : ℂ) / κ)) z r + r ^ 2 * CC (csqrt ((s : ℂ) / κ)) z r)
  rw [gamma_real hκ hs]
  generalize 2 * BC ((Real.sqrt (s / κ) : ℝ) : ℂ) z r + (r : ℂ) ^ 2 * CC ((Real.sqrt (s / κ) : ℝ) : ℂ) z r = V at e ⊢
  rw [show 8 * (κ : ℂ) ^ 2 / z * V = (κ : ℂ) ^ 2 * (8 / z * V) by ring, ← e]
  refine setIntegral_congr_fun measurableSet_Ioi fun T hT => ?_
  have hT : 0 < T := hT
  have hTc : (T : ℂ) ≠ 0 := by exact_mod_cast hT.ne'
  simp only [w0, hγ2]
  rw [show r ^ 2 / (8 * (κ * T)) = r ^ 2 / (8 * κ) / T by field_simp, ives_rive (by norm_num), ives_rive le_rfl]
  generalize r ^ 2 / (8 * κ) / T = X
  push_cast
  have ex : Complex.exp (-((z / 2 : ℂ) ^ 2) / (κ * T) - s / κ * (κ * T)) =
      Complex.exp (-(s * T)) * Complex.exp (-(z ^ 2 / (4 * κ)) / T) := by
    rw [← Complex.exp_add]; congr 1; field_simp; ring
  rw [ex]
  field_simp

end

end Verif.Lemmas
