import Verif.Lemmas.ModBessel
import Mathlib.Analysis.SpecialFunctions.Gaussian.FourierTransform
import Mathlib.MeasureTheory.Integral.Prod

/-!
# Gaussian integrals of Bessel functions that are modified Bessel functions
-/

namespace Verif.Lemmas
open Verif.Spec MeasureTheory Set Filter Topology

/-- Scaled modified Bessel functions on the real line. -/
noncomputable def ives (n : ℕ) (x : ℝ) : ℂ := Complex.exp (-(x : ℂ)) * besselI n (x : ℂ)

theorem expneg_deriv (x : ℝ) : HasDerivAt (fun x : ℝ => Complex.exp (-(x : ℂ))) (-Complex.exp (-(x : ℂ))) x := by
  have h : HasDerivAt (fun x : ℝ => -(x : ℂ)) (-1) x := by
    have := ((hasDerivAt_id x).ofReal_comp).neg
    simp only [id, Complex.ofReal_one] at this
    exact this
  exact h.cexp.congr_deriv (by ring)

theorem ives0_deriv (x : ℝ) : HasDerivAt (ives 0) (ives 1 x - ives 0 x) x := by
  refine ((expneg_deriv x).mul (I0_deriv (x : ℂ)).comp_ofReal).congr_deriv ?_
  unfold ives; ring

theorem ives1_deriv {x : ℝ} (hx : x ≠ 0) :
    HasDerivAt (ives 1) (ives 0 x - ives 1 x / x - ives 1 x) x := by
  have hx' : (x : ℂ) ≠ 0 := by exact_mod_cast hx
  refine ((expneg_deriv x).mul (I1_deriv hx').comp_ofReal).congr_deriv ?_
  unfold ives; ring

theorem ives_cont {n : ℕ} (hn : n ≤ 1) : Continuous (ives n) := by
  unfold ives
  refine Continuous.mul (by fun_prop) ?_
  exact (continuous_iff_continuousAt.2 fun z => (besselI_diff n hn z).continuousAt).comp
    Complex.continuous_ofReal

/-! ## Symmetries -/

theorem pw_pi (x ψ : ℝ) : pw x (ψ - Real.pi) = pw (-x) ψ := by
  unfold pw; rw [Real.cos_sub_pi]; push_cast; ring_nf

theorem J0_even (x : ℝ) : besselJ0 (-x) = besselJ0 x := by
  have h := int_shift (f := pw x) (pw_period x) Real.pi
  simp only [pw_pi] at h
  rw [int_one, int_one] at h
  have : (Real.pi : ℂ) ≠ 0 := by exact_mod_cast Real.pi_ne_zero
  exact mul_left_cancel₀ (mul_ne_zero two_ne_zero this) h

theorem gb_half_line {f : ℝ → ℂ} (hf : Integrable f) (he : ∀ x, f (-x) = f x) :
    ∫ x, f x = 2 * ∫ x in Ioi (0 : ℝ), f x := by
  have h := intervalIntegral.integral_Iic_add_Ioi (b := (0 : ℝ)) hf.integrableOn hf.integrableOn
  have h2 := integral_comp_neg_Iic (0 : ℝ) f
  simp only [he, neg_zero] at h2
  rw [← h, h2]; ring

/-- `∫₀^{2π} exp(-2x cos²φ) dφ = 2π exp(-x) I₀(x)`. -/
theorem double_angle (x : ℝ) :
    (∫ φ in (0 : ℝ)..(2 * Real.pi), Complex.exp (-(2 * x * (Real.cos φ : ℂ) ^ 2))) =
      2 * Real.pi * ives 0 x := by
  have hpi : (Real.pi : ℂ) ≠ 0 := by exact_mod_cast Real.pi_ne_zero
  have e1 : ∀ φ : ℝ, Complex.exp (-(2 * x * (Real.cos φ : ℂ) ^ 2)) =
      Complex.exp (-(x : ℂ)) * Complex.exp (-x * (Real.cos (2 * φ) : ℂ)) := by
    intro φ
    rw [← Complex.exp_add, Real.cos_two_mul]; push_cast; ring_nf
  simp only [e1]
  rw [intervalIntegral.integral_const_mul,
    intervalIntegral.integral_comp_mul_left (fun ψ : ℝ => Complex.exp (-x * (Real.cos ψ : ℂ))) two_ne_zero]
  have hper : ∀ ψ : ℝ, Complex.exp (-x * (Real.cos (ψ + 2 * Real.pi) : ℂ)) = Complex.exp (-x * (Real.cos ψ : ℂ)) :=
    fun ψ => by rw [Real.cos_add_two_pi]
  have hc : Continuous fun ψ : ℝ => Complex.exp (-x * (Real.cos ψ : ℂ)) := by fun_prop
  have h2 : (∫ ψ in (2 * 0 : ℝ)..(2 * (2 * Real.pi)), Complex.exp (-x * (Real.cos ψ : ℂ))) =
      2 * ∫ ψ in (0 : ℝ)..(2 * Real.pi), Complex.exp (-x * (Real.cos ψ : ℂ)) := by
    have hP : Function.Periodic (fun ψ : ℝ => Complex.exp (-x * (Real.cos ψ : ℂ))) (2 * Real.pi) := hper
    have := hP.intervalIntegral_add_eq_add 0 (2 * Real.pi) (fun a b => hc.intervalIntegrable a b)
    rw [show (2 * (2 * Real.pi) : ℝ) = 2 * Real.pi + 2 * Real.pi by ring, mul_zero, this, zero_add]; ring
  rw [h2]
  have h3 := int_shift (f := fun ψ : ℝ => Complex.exp (-x * (Real.cos ψ : ℂ))) hper Real.pi
  simp only [Real.cos_sub_pi] at h3
  have h4 : (∫ ψ in (0 : ℝ)..(2 * Real.pi), Complex.exp (-x * ((-Real.cos ψ : ℝ) : ℂ))) =
      2 * Real.pi * besselI 0 x := by
    rw [besselI_zero', imom]
    field_simp
    congr 1; funext ψ
    unfold iex; push_cast; ring_nf
  rw [← h3, h4]
  unfold ives
  rw [Complex.real_smul]; push_cast; ring

/-! ## The integrals -/

theorem sqrt_pi_div {p : ℝ} (hp : 0 < p) :
    ((Real.pi : ℂ) / (p : ℂ)) ^ (1 / 2 : ℂ) = (Real.sqrt Real.pi / Real.sqrt p : ℝ) := by
  rw [← Complex.ofReal_div, ← Real.sqrt_div Real.pi_pos.le, Real.sqrt_eq_rpow,
    Complex.ofReal_cpow (by positivity)]
  norm_num

/-- `∫ J₀(λρ) exp(-pλ²) dλ`. -/
theorem gau_I0 {p : ℝ} (hp : 0 < p) (ρ : ℝ) :
    ∫ l in Ioi (0 : ℝ), (l : ℂ) ^ 0 * besselJ0 (l * ρ) * gau p l =
      (Real.sqrt Real.pi : ℝ) / (2 * (Real.sqrt p : ℝ)) * ives 0 (ρ ^ 2 / (8 * p)) := by
  have hpi : (Real.pi : ℂ) ≠ 0 := by exact_mod_cast Real.pi_ne_zero
  have hpc : (p : ℂ) ≠ 0 := by exact_mod_cast hp.ne'
  have hsp : ((Real.sqrt p : ℝ) : ℂ) ≠ 0 := by exact_mod_cast (Real.sqrt_pos.2 hp).ne'
  simp only [pow_zero, one_mul]
  have hgi : Integrable (fun l : ℝ => Real.exp (-p * l ^ 2)) := integrable_exp_neg_mul_sq hp
  have hcont : Continuous fun l : ℝ => besselJ0 (l * ρ) * gau p l :=
    (J0_cont.comp (mulr_cont ρ)).mul (gau_cont _)
  have hint : Integrable fun l : ℝ => besselJ0 (l * ρ) * gau p l := by
    refine hgi.mono' hcont.aestronglyMeasurable (Eventually.of_forall fun l => ?_)
    rw [norm_mul, gau_norm, Complex.ofReal_re]
    exact mul_le_of_le_one_left (Real.exp_pos _).le (J0_norm _)
  have hev := gb_half_line hint fun l => by
    rw [neg_mul, J0_even]; unfold gau; push_cast; ring_nf
  have hsw : Integrable (Function.uncurry fun (l φ : ℝ) => pw (l * ρ) φ * gau p l)
      ((volume : Measure ℝ).prod (volume.restrict (Ioc (0 : ℝ) (2 * Real.pi)))) := by
    have h1 : Integrable (fun _ : ℝ => (1 : ℝ)) (volume.restrict (Ioc (0 : ℝ) (2 * Real.pi))) :=
      integrable_const _
    refine (hgi.mul_prod h1).mono' ?_ (Eventually.of_forall fun q => ?_)
    · have : Continuous (Function.uncurry fun (l φ : ℝ) => pw (l * ρ) φ * gau p l) := by
        unfold pw gau Function.uncurry; fun_prop
      exact this.aestronglyMeasurable
    · obtain ⟨l, φ⟩ := q
      simp only [Function.uncurry]
      rw [norm_mul, pw_norm, gau_norm, Complex.ofReal_re]; simp
  have h0 : (0 : ℝ) ≤ 2 * Real.pi := by have := Real.pi_pos; positivity
  have inner : ∀ φ : ℝ, ∫ l : ℝ, pw (l * ρ) φ * gau p l =
      (Real.sqrt Real.pi / Real.sqrt p : ℝ) * Complex.exp (-(2 * (ρ ^ 2 / (8 * p) : ℝ) * (Real.cos φ : ℂ) ^ 2)) := by
    intro φ
    have := fourierIntegral_gaussian (b := (p : ℂ)) (by simpa using hp) (-(ρ * Real.cos φ : ℝ))
    rw [sqrt_pi_div hp] at this
    calc _ = ∫ x : ℝ, Complex.exp (Complex.I * -(ρ * Real.cos φ : ℝ) * x) * Complex.exp (-p * (x : ℂ) ^ 2) := by
          congr 1; funext l; unfold pw gau; push_cast; ring_nf
      _ = _ := by
          rw [this]; congr 2; push_cast; field_simp; ring
  have total : ∫ l : ℝ, besselJ0 (l * ρ) * gau p l =
      (Real.sqrt Real.pi / Real.sqrt p : ℝ) * ives 0 (ρ ^ 2 / (8 * p)) := by
    have e : ∀ l : ℝ, besselJ0 (l * ρ) * gau p l =
        1 / (2 * (Real.pi : ℂ)) * ∫ φ in Ioc (0 : ℝ) (2 * Real.pi), pw (l * ρ) φ * gau p l := by
      intro l
      rw [← intervalIntegral.integral_of_le h0, intervalIntegral.integral_mul_const, int_one]
      field_simp
    simp only [e]
    rw [integral_const_mul, integral_integral_swap hsw]
    simp only [inner]
    rw [← intervalIntegral.integral_of_le h0, intervalIntegral.integral_const_mul, double_angle]
    field_simp
  rw [hev] at total
  have := congrArg (fun v => v / 2) total
  simp only [mul_div_cancel_left₀ _ (two_ne_zero (α := ℂ))] at this
  rw [this]; push_cast; ring

/-- Derivative with respect to the offset. -/
theorem gau_drho0 {c : ℂ} (hc : 0 < c.re) (ρ : ℝ) :
    HasDerivAt (fun ρ : ℝ => ∫ l in Ioi (0 : ℝ), (l : ℂ) ^ 0 * besselJ0 (l * ρ) * gau c l)
      (-∫ l in Ioi (0 : ℝ), (l : ℂ) ^ 1 * besselJ1 (l * ρ) * gau c l) ρ := by
  have := hasDerivAt_integral_of_dominated_loc_of_deriv_le (μ := volume.restrict (Ioi (0 : ℝ)))
    (F := fun (ρ : ℝ) (l : ℝ) => (l : ℂ) ^ 0 * besselJ0 (l * ρ) * gau c l)
    (F' := fun (ρ : ℝ) (l : ℝ) => -((l : ℂ) ^ 1 * besselJ1 (l * ρ) * gau c l)) (x₀ := ρ)
    (s := univ) (bound := fun l => l ^ 1 * Real.exp (-c.re * l ^ 2)) univ_mem
    (Eventually.of_forall fun r => ((cJ0 r 0).mul (gau_cont c)).aestronglyMeasurable) (iJ0 hc ρ 0)
    ((cJ1 ρ 1).mul (gau_cont c)).neg.aestronglyMeasurable ?_ (gau_pow_int hc 1) ?_
  · refine this.2.congr_deriv ?_
    rw [integral_neg]
  · refine (ae_restrict_mem measurableSet_Ioi).mono fun l hl r _ => ?_
    rw [norm_neg, norm_mul, gau_norm]
    exact mul_le_mul_of_nonneg_right (bJ1 r 1 l hl) (Real.exp_pos _).le
  · refine Eventually.of_forall fun l r _ => ?_
    have h1 : HasDerivAt (fun r : ℝ => l * r) l r := by simpa using (hasDerivAt_id r).const_mul l
    have h2 := (J0_deriv (l * r)).scomp r h1
    refine ((h2.const_mul ((l : ℂ) ^ 0)).mul_const (gau c l)).congr_deriv ?_
    simp only [Complex.real_smul]; ring

theorem arg_deriv (p ρ : ℝ) : HasDerivAt (fun ρ : ℝ => ρ ^ 2 / (8 * p)) (ρ / (4 * p)) ρ := by
  refine (((hasDerivAt_id ρ).pow 2).div_const (8 * p)).congr_deriv ?_
  simp only [id, Nat.cast_ofNat]
  rcases eq_or_ne p 0 with rfl | h
  · simp
  · field_simp; ring

/-- `∫ λ J₁(λρ) exp(-pλ²) dλ`. -/
theorem gau_I1 {p : ℝ} (hp : 0 < p) (ρ : ℝ) :
    ∫ l in Ioi (0 : ℝ), (l : ℂ) ^ 1 * besselJ1 (l * ρ) * gau p l =
      (Real.sqrt Real.pi : ℝ) * ρ / (8 * p * (Real.sqrt p : ℝ)) *
        (ives 0 (ρ ^ 2 / (8 * p)) - ives 1 (ρ ^ 2 / (8 * p))) := by
  have hpc : (p : ℂ) ≠ 0 := by exact_mod_cast hp.ne'
  have hsp : ((Real.sqrt p : ℝ) : ℂ) ≠ 0 := by exact_mod_cast (Real.sqrt_pos.2 hp).ne'
  have h1 := gau_drho0 (c := (p : ℂ)) (by simpa using hp) ρ
  rw [show (fun ρ : ℝ => ∫ l in Ioi (0 : ℝ), (l : ℂ) ^ 0 * besselJ0 (l * ρ) * gau p l) =
    fun ρ : ℝ => (Real.sqrt Real.pi : ℝ) / (2 * (Real.sqrt p : ℝ)) * ives 0 (ρ ^ 2 / (8 * p)) from
    funext fun ρ => gau_I0 hp ρ] at h1
  have h2 := ((ives0_deriv (ρ ^ 2 / (8 * p))).scomp ρ (arg_deriv p ρ)).const_mul
    ((Real.sqrt Real.pi : ℝ) / (2 * (Real.sqrt p : ℝ)) : ℂ)
  have := h1.unique h2
  rw [neg_eq_iff_eq_neg] at this
  rw [this, Complex.real_smul]
  push_cast
  field_simp
  ring

theorem gau_drho1 {c : ℂ} (hc : 0 < c.re) {ρ : ℝ} (hρ : 0 < ρ) :
    HasDerivAt (fun ρ : ℝ => ∫ l in Ioi (0 : ℝ), (l : ℂ) ^ 1 * besselJ1 (l * ρ) * gau c l)
      ((∫ l in Ioi (0 : ℝ), (l : ℂ) ^ 2 * besselJ0 (l * ρ) * gau c l) -
        (∫ l in Ioi (0 : ℝ), (l : ℂ) ^ 1 * besselJ1 (l * ρ) * gau c l) / ρ) ρ := by
  have hU : Ioi (ρ / 2) ∈ 𝓝 ρ := isOpen_Ioi.mem_nhds (by simp only [mem_Ioi]; linarith)
  have hbi : IntegrableOn (fun l : ℝ => l ^ 2 * Real.exp (-c.re * l ^ 2) +
      l ^ 1 * Real.exp (-c.re * l ^ 2) * (2 / ρ)) (Ioi 0) :=
    (gau_pow_int hc 2).add ((gau_pow_int hc 1).mul_const _)
  have := hasDerivAt_integral_of_dominated_loc_of_deriv_le (μ := volume.restrict (Ioi (0 : ℝ)))
    (F := fun (ρ : ℝ) (l : ℝ) => (l : ℂ) ^ 1 * besselJ1 (l * ρ) * gau c l)
    (F' := fun (ρ : ℝ) (l : ℝ) => (l : ℂ) ^ 2 * besselJ0 (l * ρ) * gau c l -
      ((l : ℂ) ^ 1 * besselJ1 (l * ρ) * gau c l) / ρ) (x₀ := ρ)
    (s := Ioi (ρ / 2)) (bound := fun l => l ^ 2 * Real.exp (-c.re * l ^ 2) +
      l ^ 1 * Real.exp (-c.re * l ^ 2) * (2 / ρ)) hU
    (Eventually.of_forall fun r => ((cJ1 r 1).mul (gau_cont c)).aestronglyMeasurable) (iJ1 hc ρ 1)
    (((cJ0 ρ 2).mul (gau_cont c)).sub
      (((cJ1 ρ 1).mul (gau_cont c)).div_const _)).aestronglyMeasurable ?_
    hbi ?_
  · refine this.2.congr_deriv ?_
    rw [integral_sub (iJ0 hc ρ 2) ((iJ1 hc ρ 1).div_const _), integral_div]
  · refine (ae_restrict_mem measurableSet_Ioi).mono fun l hl r hr => ?_
    have hr : ρ / 2 < r := hr
    have hl : 0 < l := hl
    have hr0 : 0 < r := by linarith
    refine (norm_sub_le _ _).trans (add_le_add ?_ ?_)
    · rw [norm_mul, gau_norm]
      exact mul_le_mul_of_nonneg_right (bJ0 r 2 l hl) (Real.exp_pos _).le
    · rw [norm_div, norm_mul, gau_norm, Complex.norm_real, Real.norm_of_nonneg hr0.le, div_eq_mul_inv]
      refine mul_le_mul (mul_le_mul_of_nonneg_right (bJ1 r 1 l hl) (Real.exp_pos _).le) ?_ (by positivity)
        (by positivity)
      rw [inv_eq_one_div, div_le_div_iff₀ hr0 hρ]; linarith
  · refine (ae_restrict_mem measurableSet_Ioi).mono fun l hl r hr => ?_
    have hr : ρ / 2 < r := hr
    have hl : 0 < l := hl
    have hr0 : 0 < r := by linarith
    have hl' : (l : ℂ) ≠ 0 := by exact_mod_cast hl.ne'
    have hr' : (r : ℂ) ≠ 0 := by exact_mod_cast hr0.ne'
    have h1 : HasDerivAt (fun r : ℝ => l * r) l r := by simpa using (hasDerivAt_id r).const_mul l
    have h2 := (J1_deriv (mul_pos hl hr0).ne').scomp r h1
    refine ((h2.const_mul ((l : ℂ) ^ 1)).mul_const (gau c l)).congr_deriv ?_
    simp only [Complex.real_smul]; push_cast; field_simp

/-- `∫ λ² J₀(λρ) exp(-pλ²) dλ`. -/
theorem gau_I2 {p : ℝ} (hp : 0 < p) {ρ : ℝ} (hρ : 0 < ρ) :
    ∫ l in Ioi (0 : ℝ), (l : ℂ) ^ 2 * besselJ0 (l * ρ) * gau p l =
      (Real.sqrt Real.pi : ℝ) / (4 * p * (Real.sqrt p : ℝ)) *
        (ives 0 (ρ ^ 2 / (8 * p)) - 2 * (ρ ^ 2 / (8 * p) : ℝ) *
          (ives 0 (ρ ^ 2 / (8 * p)) - ives 1 (ρ ^ 2 / (8 * p)))) := by
  have hpc : (p : ℂ) ≠ 0 := by exact_mod_cast hp.ne'
  have hρc : (ρ : ℂ) ≠ 0 := by exact_mod_cast hρ.ne'
  have hsp : ((Real.sqrt p : ℝ) : ℂ) ≠ 0 := by exact_mod_cast (Real.sqrt_pos.2 hp).ne'
  have h1 := gau_drho1 (c := (p : ℂ)) (by simpa using hp) hρ
  rw [show (fun ρ : ℝ => ∫ l in Ioi (0 : ℝ), (l : ℂ) ^ 1 * besselJ1 (l * ρ) * gau p l) =
    fun ρ : ℝ => (Real.sqrt Real.pi : ℝ) * ρ / (8 * p * (Real.sqrt p : ℝ)) *
        (ives 0 (ρ ^ 2 / (8 * p)) - ives 1 (ρ ^ 2 / (8 * p))) from
    funext fun ρ => gau_I1 hp ρ, gau_I1 hp ρ] at h1
  have hx : ρ ^ 2 / (8 * p) ≠ 0 := by positivity
  have h3 : HasDerivAt (fun ρ : ℝ => (Real.sqrt Real.pi : ℂ) * ρ / (8 * p * (Real.sqrt p : ℝ)))
      ((Real.sqrt Real.pi : ℂ) / (8 * p * (Real.sqrt p : ℝ))) ρ := by
    have := (((hasDerivAt_id ρ).ofReal_comp).const_mul (Real.sqrt Real.pi : ℂ)).div_const
      (8 * p * (Real.sqrt p : ℝ) : ℂ)
    simpa using this
  have h2 := h3.mul (((ives0_deriv (ρ ^ 2 / (8 * p))).scomp ρ (arg_deriv p ρ)).sub
    ((ives1_deriv hx).scomp ρ (arg_deriv p ρ)))
  have := h1.unique h2
  rw [sub_eq_iff_eq_add] at this
  rw [this]
  simp only [Complex.real_smul, Function.comp_def, Pi.sub_apply]
  generalize ives 0 (ρ ^ 2 / (8 * p)) = i0
  generalize ives 1 (ρ ^ 2 / (8 * p)) = i1
  push_cast
  field_simp
  ring

end Verif.Lemmas
