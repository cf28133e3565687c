import Mathlib.Analysis.Fourier.Inversion
import Mathlib.Analysis.Fourier.RiemannLebesgueLemma
import Mathlib.MeasureTheory.Integral.Prod
import Mathlib.MeasureTheory.Integral.IntegralEqImproper
import Mathlib.Analysis.SpecialFunctions.Integrals.Basic

/-!
# Sine and cosine transforms of a causal function, and of its integrals
-/

namespace Verif.FourierStep
open MeasureTheory Set Real Filter Topology
open scoped FourierTransform

/-- Cosine integral. -/
noncomputable def cosInt (e : ℝ → ℝ) (w : ℝ) : ℝ := ∫ x in Ioi 0, e x * cos (w * x)

/-- Sine integral. -/
noncomputable def sinInt (e : ℝ → ℝ) (w : ℝ) : ℝ := ∫ x in Ioi 0, e x * sin (w * x)

theorem cosInt_neg (e : ℝ → ℝ) (w : ℝ) : cosInt e (-w) = cosInt e w := by
  simp [cosInt, neg_mul, cos_neg]

theorem sinInt_neg (e : ℝ → ℝ) (w : ℝ) : sinInt e (-w) = -sinInt e w := by
  simp [sinInt, neg_mul, sin_neg, integral_neg]

theorem integrable_of_halves (f : ℝ → ℂ) (h1 : IntegrableOn f (Ioi 0))
    (h2 : IntegrableOn (fun x => f (-x)) (Ioi 0)) : Integrable f := by
  have h3 : IntegrableOn f (Iic 0) := by
    rw [integrableOn_Iic_iff_integrableOn_Iio, ← integrable_indicator_iff measurableSet_Iio]
    have h := (h2.integrable_indicator measurableSet_Ioi).comp_neg
    refine h.congr (Eventually.of_forall fun x => ?_)
    simp only [indicator, mem_Ioi, mem_Iio, neg_neg, Left.neg_pos_iff]
  have := h3.union h1
  rwa [Iic_union_Ioi, integrableOn_univ] at this

theorem integral_halves (f : ℝ → ℂ) (h : Integrable f) :
    ∫ x, f x = ∫ x in Ioi 0, (f x + f (-x)) := by
  rw [integral_add h.integrableOn (h.comp_neg).integrableOn, integral_comp_neg_Ioi, neg_zero, add_comm]
  exact (intervalIntegral.integral_Iic_add_Ioi h.integrableOn h.integrableOn).symm

theorem ofReal_integrableOn {e : ℝ → ℝ} (he : IntegrableOn e (Ioi 0)) :
    IntegrableOn (fun x => (e x : ℂ)) (Ioi 0) := he.ofReal

theorem cos_integrableOn {f : ℝ → ℝ} (hf : IntegrableOn f (Ioi 0)) (t : ℝ) :
    IntegrableOn (fun x => f x * cos (x * t)) (Ioi 0) :=
  hf.mul_bdd (c := 1) (by fun_prop) (Eventually.of_forall fun x => by
    simpa using abs_cos_le_one (x * t))

theorem sin_integrableOn {f : ℝ → ℝ} (hf : IntegrableOn f (Ioi 0)) (t : ℝ) :
    IntegrableOn (fun x => f x * sin (x * t)) (Ioi 0) :=
  hf.mul_bdd (c := 1) (by fun_prop) (Eventually.of_forall fun x => by
    simpa using abs_sin_le_one (x * t))

/-- Even extension. -/
noncomputable def evenExt (e : ℝ → ℝ) (x : ℝ) : ℂ := (e |x| : ℂ)

/-- Odd extension. -/
noncomputable def oddExt (e : ℝ → ℝ) (x : ℝ) : ℂ := if 0 < x then (e x : ℂ) else -(e (-x) : ℂ)

theorem evenExt_integrable {e : ℝ → ℝ} (he : IntegrableOn e (Ioi 0)) : Integrable (evenExt e) := by
  refine integrable_of_halves _ ?_ ?_
  · refine (ofReal_integrableOn he).congr_fun (fun x hx => ?_) measurableSet_Ioi
    simp [evenExt, abs_of_pos (mem_Ioi.1 hx)]
  · refine (ofReal_integrableOn he).congr_fun (fun x hx => ?_) measurableSet_Ioi
    simp [evenExt, abs_of_pos (mem_Ioi.1 hx)]

theorem oddExt_integrable {e : ℝ → ℝ} (he : IntegrableOn e (Ioi 0)) : Integrable (oddExt e) := by
  refine integrable_of_halves _ ?_ ?_
  · refine (ofReal_integrableOn he).congr_fun (fun x hx => ?_) measurableSet_Ioi
    simp [oddExt, mem_Ioi.1 hx]
  · refine (ofReal_integrableOn he).neg.congr_fun (fun x hx => ?_) measurableSet_Ioi
    have : ¬ 0 < -x := by have := mem_Ioi.1 hx; linarith
    simp [oddExt, this]

theorem exp_integrable {f : ℝ → ℂ} (hf : Integrable f) (w : ℝ) :
    Integrable fun x : ℝ => Complex.exp (((w * x : ℝ) : ℂ) * Complex.I) * f x := by
  refine hf.bdd_mul (c := 1) ?_ (Eventually.of_forall fun x => ?_)
  · exact (by fun_prop : Continuous fun x : ℝ =>
      Complex.exp (((w * x : ℝ) : ℂ) * Complex.I)).aestronglyMeasurable
  · rw [Complex.norm_exp_ofReal_mul_I]

theorem exp_add_exp_neg (y : ℝ) :
    Complex.exp ((y : ℂ) * Complex.I) + Complex.exp (((-y : ℝ) : ℂ) * Complex.I) = ((2 * cos y : ℝ) : ℂ) := by
  rw [Complex.exp_mul_I, Complex.exp_mul_I]
  push_cast
  rw [Complex.cos_neg, Complex.sin_neg]
  ring

theorem exp_sub_exp_neg (y : ℝ) :
    Complex.exp ((y : ℂ) * Complex.I) - Complex.exp (((-y : ℝ) : ℂ) * Complex.I) =
      ((2 * sin y : ℝ) : ℂ) * Complex.I := by
  rw [Complex.exp_mul_I, Complex.exp_mul_I]
  push_cast
  rw [Complex.cos_neg, Complex.sin_neg]
  ring

/-- Whole-line exponential integral of an even function. -/
theorem even_exp (f : ℝ → ℂ) (hf : Integrable f) (he : ∀ x, 0 < x → f (-x) = f x) (w : ℝ) :
    ∫ x : ℝ, Complex.exp (((w * x : ℝ) : ℂ) * Complex.I) * f x =
      ∫ x in Ioi 0, ((2 * cos (w * x) : ℝ) : ℂ) * f x := by
  rw [integral_halves _ (exp_integrable hf w)]
  refine setIntegral_congr_fun measurableSet_Ioi fun x hx => ?_
  rw [he x hx, ← add_mul, mul_neg, exp_add_exp_neg]

/-- Whole-line exponential integral of an odd function. -/
theorem odd_exp (f : ℝ → ℂ) (hf : Integrable f) (he : ∀ x, 0 < x → f (-x) = -f x) (w : ℝ) :
    ∫ x : ℝ, Complex.exp (((w * x : ℝ) : ℂ) * Complex.I) * f x =
      ∫ x in Ioi 0, ((2 * sin (w * x) : ℝ) : ℂ) * Complex.I * f x := by
  rw [integral_halves _ (exp_integrable hf w)]
  refine setIntegral_congr_fun measurableSet_Ioi fun x hx => ?_
  rw [he x hx, mul_neg (Complex.exp _), ← sub_eq_add_neg, ← sub_mul, mul_neg, exp_sub_exp_neg]

theorem fourier_exp (f : ℝ → ℂ) (k : ℝ) :
    𝓕 f k = ∫ x : ℝ, Complex.exp (((-(2 * π * k) * x : ℝ) : ℂ) * Complex.I) * f x := by
  rw [Real.fourier_real_eq_integral_exp_smul]
  refine integral_congr_ae (Eventually.of_forall fun x => ?_)
  simp only [smul_eq_mul]
  congr 3
  push_cast
  ring

theorem fourierInv_exp (f : ℝ → ℂ) (t : ℝ) :
    𝓕⁻ f t = ∫ x : ℝ, Complex.exp (((2 * π * t * x : ℝ) : ℂ) * Complex.I) * f x := by
  rw [Real.fourierInv_eq_fourier_neg, fourier_exp]
  refine integral_congr_ae (Eventually.of_forall fun x => ?_)
  simp only
  congr 4
  ring

theorem fourier_even (e : ℝ → ℝ) (he : IntegrableOn e (Ioi 0)) (k : ℝ) :
    𝓕 (evenExt e) k = ((2 * cosInt e (2 * π * k) : ℝ) : ℂ) := by
  rw [fourier_exp, even_exp _ (evenExt_integrable he) fun x _ => by simp [evenExt], cosInt,
    ← integral_const_mul, ← integral_complex_ofReal]
  refine setIntegral_congr_fun measurableSet_Ioi fun x hx => ?_
  simp only [evenExt, abs_of_pos (mem_Ioi.1 hx), neg_mul, cos_neg]
  push_cast
  ring

theorem fourier_odd (e : ℝ → ℝ) (he : IntegrableOn e (Ioi 0)) (k : ℝ) :
    𝓕 (oddExt e) k = ((-(2 * sinInt e (2 * π * k)) : ℝ) : ℂ) * Complex.I := by
  rw [fourier_exp, odd_exp _ (oddExt_integrable he) fun x hx => by
      have : ¬ 0 < -x := by linarith
      simp [oddExt, this, hx], sinInt,
    ← integral_const_mul, ← integral_neg, ← integral_complex_ofReal, ← integral_mul_const]
  refine setIntegral_congr_fun measurableSet_Ioi fun x hx => ?_
  simp only [oddExt, if_pos (mem_Ioi.1 hx), neg_mul, sin_neg]
  push_cast
  ring

/-- **Cosine inversion.** -/
theorem cos_inversion {e : ℝ → ℝ} (he : IntegrableOn e (Ioi 0)) (hc : ContinuousOn e (Ioi 0))
    (hC : IntegrableOn (cosInt e) (Ioi 0)) {t : ℝ} (ht : 0 < t) :
    2 / π * ∫ w in Ioi 0, cosInt e w * cos (w * t) = e t := by
  have hF : 𝓕 (evenExt e) = fun k => ((2 * cosInt e (2 * π * k) : ℝ) : ℂ) :=
    funext fun k => fourier_even e he k
  have hp : (0 : ℝ) < 2 * π := by positivity
  have hI : Integrable fun k : ℝ => ((2 * cosInt e (2 * π * k) : ℝ) : ℂ) := by
    have h1 : IntegrableOn (fun k => cosInt e (2 * π * k)) (Ioi 0) := by
      rw [integrableOn_Ioi_comp_mul_left_iff _ _ hp, mul_zero]; exact hC
    refine integrable_of_halves _ (h1.const_mul 2).ofReal ?_
    have h2 : IntegrableOn (fun k => ((2 * cosInt e (2 * π * k) : ℝ) : ℂ)) (Ioi 0) := (h1.const_mul 2).ofReal
    simpa only [mul_neg, cosInt_neg] using h2
  have hcont : ContinuousAt (evenExt e) t := by
    have h1 : ContinuousAt e |t| := by
      rw [abs_of_pos ht]; exact hc.continuousAt (Ioi_mem_nhds ht)
    exact Complex.continuous_ofReal.continuousAt.comp
      (ContinuousAt.comp (g := e) h1 continuous_abs.continuousAt)
  have h := (evenExt_integrable he).fourierInv_fourier_eq (by rw [hF]; exact hI) hcont
  rw [hF, fourierInv_exp, even_exp _ hI (fun x _ => by simp [cosInt_neg])] at h
  have h2 : ∫ x in Ioi 0, ((2 * cos (2 * π * t * x) : ℝ) : ℂ) * ((2 * cosInt e (2 * π * x) : ℝ) : ℂ) =
      ((∫ x in Ioi 0, 4 * (fun w => cosInt e w * cos (w * t)) (2 * π * x) : ℝ) : ℂ) := by
    rw [← integral_complex_ofReal]
    refine setIntegral_congr_fun measurableSet_Ioi fun x _ => ?_
    simp only
    rw [show 2 * π * t * x = 2 * π * x * t by ring]
    push_cast
    ring
  rw [h2, integral_const_mul, integral_comp_mul_left_Ioi (fun w => cosInt e w * cos (w * t)) _ hp, mul_zero, evenExt, abs_of_pos ht] at h
  have h := Complex.ofReal_injective h
  rw [← h, smul_eq_mul]
  generalize (∫ x in Ioi (0 : ℝ), cosInt e x * cos (x * t)) = J
  field_simp
  ring

/-- **Sine inversion.** -/
theorem sin_inversion {e : ℝ → ℝ} (he : IntegrableOn e (Ioi 0)) (hc : ContinuousOn e (Ioi 0))
    (hS : IntegrableOn (sinInt e) (Ioi 0)) {t : ℝ} (ht : 0 < t) :
    2 / π * ∫ w in Ioi 0, sinInt e w * sin (w * t) = e t := by
  have hF : 𝓕 (oddExt e) = fun k => ((-(2 * sinInt e (2 * π * k)) : ℝ) : ℂ) * Complex.I :=
    funext fun k => fourier_odd e he k
  have hp : (0 : ℝ) < 2 * π := by positivity
  have hI : Integrable fun k : ℝ => ((-(2 * sinInt e (2 * π * k)) : ℝ) : ℂ) * Complex.I := by
    have h1 : IntegrableOn (fun k => sinInt e (2 * π * k)) (Ioi 0) := by
      rw [integrableOn_Ioi_comp_mul_left_iff _ _ hp, mul_zero]; exact hS
    refine integrable_of_halves _ ((h1.const_mul 2).neg.ofReal.mul_const _) ?_
    have : IntegrableOn (fun k => ((2 * sinInt e (2 * π * k) : ℝ) : ℂ) * Complex.I) (Ioi 0) :=
      ((h1.const_mul 2).ofReal (𝕜 := ℂ)).mul_const Complex.I
    simpa only [mul_neg, sinInt_neg, neg_neg] using this
  have hcont : ContinuousAt (oddExt e) t := by
    have h1 : ContinuousAt (fun x => (e x : ℂ)) t :=
      Complex.continuous_ofReal.continuousAt.comp (hc.continuousAt (Ioi_mem_nhds ht))
    refine h1.congr ?_
    filter_upwards [Ioi_mem_nhds ht] with x hx
    simp [oddExt, mem_Ioi.1 hx]
  have h := (oddExt_integrable he).fourierInv_fourier_eq (by rw [hF]; exact hI) hcont
  rw [hF, fourierInv_exp, odd_exp _ hI (fun x _ => by simp [sinInt_neg])] at h
  have h2 : ∫ x in Ioi 0, ((2 * sin (2 * π * t * x) : ℝ) : ℂ) * Complex.I *
        (((-(2 * sinInt e (2 * π * x)) : ℝ) : ℂ) * Complex.I) =
      ((∫ x in Ioi 0, 4 * (fun w => sinInt e w * sin (w * t)) (2 * π * x) : ℝ) : ℂ) := by
    rw [← integral_complex_ofReal]
    refine setIntegral_congr_fun measurableSet_Ioi fun x _ => ?_
    simp only
    rw [show 2 * π * t * x = 2 * π * x * t by ring]
    push_cast
    linear_combination (-4 * Complex.sin (2 * π * x * t) * (sinInt e (2 * π * x) : ℂ)) * Complex.I_mul_I
  rw [h2, integral_const_mul, integral_comp_mul_left_Ioi (fun w => sinInt e w * sin (w * t)) _ hp, mul_zero, oddExt, if_pos ht] at h
  have h := Complex.ofReal_injective h
  rw [← h, smul_eq_mul]
  generalize (∫ x in Ioi (0 : ℝ), sinInt e x * sin (x * t)) = J
  field_simp
  ring

/-! ## Integrals in time -/

theorem swap (f : ℝ → ℝ) (hf : IntegrableOn f (Ioi 0)) (g : ℝ → ℝ) (hg : Continuous g)
    (hb : ∀ x, |g x| ≤ 1) (a b : ℝ) (hab : a ≤ b) :
    ∫ s in a..b, (∫ w in Ioi 0, f w * g (w * s)) = ∫ w in Ioi 0, f w * ∫ s in a..b, g (w * s) := by
  rw [intervalIntegral.integral_of_le hab, integral_integral_swap]
  · refine integral_congr_ae (Eventually.of_forall fun w => ?_)
    simp only
    rw [intervalIntegral.integral_of_le hab, integral_const_mul]
  · have h1 : Integrable (fun _ : ℝ => (1 : ℝ)) (volume.restrict (Ioc a b)) := integrable_const _
    have h2 := h1.mul_prod hf
    have h3 := h2.mul_bdd (g := fun z : ℝ × ℝ => g (z.2 * z.1)) (c := 1)
      (by fun_prop) (Eventually.of_forall fun z => by simpa using hb (z.2 * z.1))
    refine h3.congr (Eventually.of_forall fun z => ?_)
    simp [Function.uncurry]

/-- **Integral from zero.** -/
theorem step_on {e : ℝ → ℝ} (he : IntegrableOn e (Ioi 0)) (hc : ContinuousOn e (Ioi 0))
    (hC : IntegrableOn (cosInt e) (Ioi 0)) {t : ℝ} (ht : 0 < t) :
    2 / π * ∫ w in Ioi 0, cosInt e w / w * sin (w * t) = ∫ s in (0 : ℝ)..t, e s := by
  have h1 : ∫ s in (0 : ℝ)..t, e s =
      ∫ s in (0 : ℝ)..t, 2 / π * ∫ w in Ioi 0, cosInt e w * cos (w * s) := by
    rw [intervalIntegral.integral_of_le ht.le, intervalIntegral.integral_of_le ht.le]
    exact setIntegral_congr_fun measurableSet_Ioc fun s hs => (cos_inversion he hc hC hs.1).symm
  rw [h1, intervalIntegral.integral_const_mul,
    swap _ hC cos continuous_cos abs_cos_le_one 0 t ht.le]
  congr 1
  refine setIntegral_congr_fun measurableSet_Ioi fun w hw => ?_
  have hw : w ≠ 0 := (mem_Ioi.1 hw).ne'
  rw [intervalIntegral.integral_comp_mul_left _ hw, integral_cos]
  simp
  field_simp

theorem riemann_lebesgue {f : ℝ → ℝ} (hf : IntegrableOn f (Ioi 0)) :
    Tendsto (fun T : ℝ => ∫ w in Ioi 0, f w * cos (w * T)) atTop (𝓝 0) := by
  have h := Real.tendsto_integral_exp_smul_cocompact fun w => ((indicator (Ioi 0) f w : ℝ) : ℂ)
  have hp : (0 : ℝ) < (2 * π)⁻¹ := by positivity
  have h2 : Tendsto (fun T : ℝ => (2 * π)⁻¹ * T) atTop (cocompact ℝ) :=
    (tendsto_id.const_mul_atTop hp).mono_right atTop_le_cocompact
  have h3 := (Complex.continuous_re.tendsto 0).comp (h.comp h2)
  rw [Complex.zero_re] at h3
  refine h3.congr fun T => ?_
  simp only [Function.comp]
  have hi : Integrable fun v : ℝ => 𝐞 (-(v * ((2 * π)⁻¹ * T))) • ((indicator (Ioi 0) f v : ℝ) : ℂ) := by
    have hf' : Integrable fun v : ℝ => ((indicator (Ioi 0) f v : ℝ) : ℂ) :=
      (hf.integrable_indicator measurableSet_Ioi).ofReal
    refine (exp_integrable hf' (-T)).congr (Eventually.of_forall fun v => ?_)
    simp only [Circle.smul_def, Real.fourierChar_apply, smul_eq_mul]
    congr 3
    push_cast
    field_simp
  rw [← integral_indicator measurableSet_Ioi]
  have := (integral_re hi).symm
  simp only [RCLike.re_eq_complex_re] at this
  rw [this]
  refine integral_congr_ae (Eventually.of_forall fun v => ?_)
  simp only [Circle.smul_def, Real.fourierChar_apply, smul_eq_mul, Complex.mul_re, Complex.ofReal_re,
    Complex.ofReal_im, mul_zero, sub_zero, Complex.exp_ofReal_mul_I_re]
  rw [show 2 * π * -(v * ((2 * π)⁻¹ * T)) = -(v * T) by field_simp, cos_neg]
  by_cases hv : v ∈ Ioi (0 : ℝ)
  · simp [hv, mul_comm]
  · simp [hv]

/-- **Integral to infinity.** -/
theorem step_off {e : ℝ → ℝ} (he : IntegrableOn e (Ioi 0)) (hc : ContinuousOn e (Ioi 0))
    (hS : IntegrableOn (sinInt e) (Ioi 0)) (hS' : IntegrableOn (fun w => sinInt e w / w) (Ioi 0))
    {t : ℝ} (ht : 0 < t) :
    2 / π * ∫ w in Ioi 0, sinInt e w / w * cos (w * t) = ∫ s in Ioi t, e s := by
  have hfin : ∀ T, t ≤ T → ∫ s in t..T, e s =
      2 / π * ((∫ w in Ioi 0, sinInt e w / w * cos (w * t)) -
        ∫ w in Ioi 0, sinInt e w / w * cos (w * T)) := by
    intro T hT
    have h1 : ∫ s in t..T, e s =
        ∫ s in t..T, 2 / π * ∫ w in Ioi 0, sinInt e w * sin (w * s) := by
      rw [intervalIntegral.integral_of_le hT, intervalIntegral.integral_of_le hT]
      exact setIntegral_congr_fun measurableSet_Ioc fun s hs =>
        (sin_inversion he hc hS (ht.trans hs.1)).symm
    rw [h1, intervalIntegral.integral_const_mul,
      swap _ hS sin continuous_sin abs_sin_le_one t T hT,
      ← integral_sub (cos_integrableOn hS' t) (cos_integrableOn hS' T)]
    congr 1
    refine setIntegral_congr_fun measurableSet_Ioi fun w hw => ?_
    have hw : w ≠ 0 := (mem_Ioi.1 hw).ne'
    rw [intervalIntegral.integral_comp_mul_left _ hw, integral_sin, smul_eq_mul]
    field_simp
  have hlim := intervalIntegral_tendsto_integral_Ioi t (he.mono_set (Ioi_subset_Ioi ht.le)) tendsto_id
  have hlim2 : Tendsto (fun T => ∫ s in t..T, e s) atTop
      (𝓝 (2 / π * ((∫ w in Ioi 0, sinInt e w / w * cos (w * t)) - 0))) := by
    have := ((riemann_lebesgue hS').const_sub
      (∫ w in Ioi 0, sinInt e w / w * cos (w * t))).const_mul (2 / π)
    refine this.congr' ?_
    filter_upwards [eventually_ge_atTop t] with T hT
    rw [hfin T hT]
  rw [sub_zero] at hlim2
  exact tendsto_nhds_unique hlim2 hlim

end Verif.FourierStep
