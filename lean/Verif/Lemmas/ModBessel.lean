import Verif.Spec.ModBessel
import Verif.Lemmas.GaussHankel
import Mathlib.Analysis.SpecialFunctions.Trigonometric.DerivHyp

/-!
# Modified Bessel functions: derivatives and recurrences
-/

namespace Verif.Lemmas
open Verif.Spec MeasureTheory Set Filter Topology

/-! ## Moments for `I` -/

noncomputable def iex (z : ℂ) (θ : ℝ) : ℂ := Complex.exp (z * Real.cos θ)

theorem iex_cont (z : ℂ) : Continuous (iex z) := by unfold iex; fun_prop

/-- `∫₀^{2π} cos^k θ exp(z cos θ) dθ`. -/
noncomputable def imom (k : ℕ) (z : ℂ) : ℂ :=
  ∫ θ in (0 : ℝ)..(2 * Real.pi), (Real.cos θ : ℂ) ^ k * iex z θ

theorem ccos_norm (θ : ℝ) : ‖(Real.cos θ : ℂ)‖ ≤ 1 := by
  rw [Complex.norm_real]; exact Real.abs_cos_le_one θ

theorem imom_deriv (k : ℕ) (z : ℂ) : HasDerivAt (imom k) (imom (k + 1) z) z := by
  have hc : ∀ k (z : ℂ), Continuous fun θ : ℝ => (Real.cos θ : ℂ) ^ k * iex z θ := fun k z =>
    (ccos_cont.pow k).mul (iex_cont z)
  refine (intervalIntegral.hasDerivAt_integral_of_dominated_loc_of_deriv_le
    (F := fun (z : ℂ) θ => (Real.cos θ : ℂ) ^ k * iex z θ)
    (F' := fun (z : ℂ) θ => (Real.cos θ : ℂ) ^ (k + 1) * iex z θ)
    (s := Metric.ball z 1) (bound := fun θ => Real.exp (‖z‖ + 1)) (Metric.ball_mem_nhds z one_pos)
    ?_ ?_ ?_ ?_ ?_ ?_).2
  · exact Eventually.of_forall fun z => (hc k z).aestronglyMeasurable
  · exact (hc k z).intervalIntegrable _ _
  · exact (hc (k + 1) z).aestronglyMeasurable
  · refine Eventually.of_forall fun θ _ y hy => ?_
    have hy' : ‖y‖ ≤ ‖z‖ + 1 := by
      have := norm_sub_norm_le y z
      have h2 : ‖y - z‖ < 1 := by simpa [dist_eq_norm] using hy
      linarith
    rw [norm_mul, norm_pow]
    have h1 : ‖(Real.cos θ : ℂ)‖ ^ (k + 1) ≤ 1 := pow_le_one₀ (norm_nonneg _) (ccos_norm θ)
    have h2 : ‖iex y θ‖ ≤ Real.exp (‖z‖ + 1) := by
      unfold iex
      refine (Complex.norm_exp_le_exp_norm _).trans (Real.exp_le_exp.2 ?_)
      rw [norm_mul]
      calc _ ≤ ‖y‖ * 1 := mul_le_mul_of_nonneg_left (ccos_norm θ) (norm_nonneg _)
        _ ≤ _ := by linarith
    calc _ ≤ 1 * Real.exp (‖z‖ + 1) := mul_le_mul h1 h2 (norm_nonneg _) zero_le_one
      _ = _ := one_mul _
  · exact continuous_const.intervalIntegrable _ _
  · refine Eventually.of_forall fun θ _ y _ => ?_
    have h1 : HasDerivAt (fun y : ℂ => y * (Real.cos θ : ℂ)) (Real.cos θ : ℂ) y := by
      simpa using (hasDerivAt_id y).mul_const (Real.cos θ : ℂ)
    have h2 : HasDerivAt (fun y : ℂ => iex y θ) (iex y θ * (Real.cos θ : ℂ)) y := h1.cexp
    exact (h2.const_mul ((Real.cos θ : ℂ) ^ k)).congr_deriv (by ring)

theorem besselI_zero' (z : ℂ) : besselI 0 z = 1 / (2 * (Real.pi : ℂ)) * imom 0 z := by
  unfold besselI imom iex
  congr 2; funext θ; simp

theorem besselI_one' (z : ℂ) : besselI 1 z = 1 / (2 * (Real.pi : ℂ)) * imom 1 z := by
  unfold besselI imom iex
  congr 2; funext θ; simp [mul_comm]

theorem imom_int (k : ℕ) (z : ℂ) :
    IntervalIntegrable (fun θ : ℝ => (Real.cos θ : ℂ) ^ k * iex z θ) volume 0 (2 * Real.pi) :=
  ((ccos_cont.pow k).mul (iex_cont z)).intervalIntegrable _ _

theorem besselI_two' (z : ℂ) : besselI 2 z = 1 / (2 * (Real.pi : ℂ)) * (2 * imom 2 z - imom 0 z) := by
  unfold besselI
  congr 1
  rw [imom, imom, ← intervalIntegral.integral_const_mul,
    ← intervalIntegral.integral_sub ((imom_int 2 z).const_mul 2) (imom_int 0 z)]
  congr 1; funext θ
  unfold iex
  rw [Nat.cast_ofNat, Real.cos_two_mul]; push_cast; ring

/-- Integration by parts: `z (I₀ - ∫cos²) = ∫cos`. -/
theorem imom_parts (z : ℂ) : z * (imom 0 z - imom 2 z) = imom 1 z := by
  have hd : ∀ θ : ℝ, HasDerivAt (fun θ : ℝ => (Real.sin θ : ℂ) * iex z θ)
      ((Real.cos θ : ℂ) * iex z θ - z * ((Real.sin θ : ℂ) ^ 2 * iex z θ)) θ := by
    intro θ
    have h1 : HasDerivAt (fun θ : ℝ => (Real.sin θ : ℂ)) (Real.cos θ : ℂ) θ :=
      (Real.hasDerivAt_sin θ).ofReal_comp
    have h2 : HasDerivAt (fun θ : ℝ => z * (Real.cos θ : ℂ)) (z * ((-Real.sin θ : ℝ) : ℂ)) θ :=
      ((Real.hasDerivAt_cos θ).ofReal_comp).const_mul z
    have h3 : HasDerivAt (fun θ : ℝ => iex z θ) (iex z θ * (z * ((-Real.sin θ : ℝ) : ℂ))) θ := h2.cexp
    refine (h1.mul h3).congr_deriv ?_
    push_cast; ring
  have hs : Continuous fun θ : ℝ => (Real.sin θ : ℂ) ^ 2 * iex z θ :=
    ((Complex.continuous_ofReal.comp Real.continuous_sin).pow 2).mul (iex_cont z)
  have hcc : Continuous fun θ : ℝ => (Real.cos θ : ℂ) * iex z θ := ccos_cont.mul (iex_cont z)
  have h := intervalIntegral.integral_eq_sub_of_hasDerivAt (a := 0) (b := 2 * Real.pi)
    (fun θ _ => hd θ) ((hcc.sub (hs.const_mul z)).intervalIntegrable _ _)
  rw [intervalIntegral.integral_sub (hcc.intervalIntegrable _ _)
    ((hs.const_mul z).intervalIntegrable _ _), intervalIntegral.integral_const_mul] at h
  have e : (∫ θ in (0 : ℝ)..(2 * Real.pi), (Real.sin θ : ℂ) ^ 2 * iex z θ) = imom 0 z - imom 2 z := by
    rw [imom, imom, ← intervalIntegral.integral_sub (imom_int 0 z) (imom_int 2 z)]
    congr 1; funext θ
    have := Complex.sin_sq_add_cos_sq (θ : ℂ)
    push_cast
    linear_combination (iex z θ) * this
  have e1 : (∫ θ in (0 : ℝ)..(2 * Real.pi), (Real.cos θ : ℂ) * iex z θ) = imom 1 z := by
    unfold imom; congr 1; funext θ; rw [pow_one]
  rw [e, e1] at h
  simp only [Real.sin_two_pi, Real.sin_zero, Complex.ofReal_zero, zero_mul, sub_self] at h
  linear_combination -h

theorem I0_deriv (z : ℂ) : HasDerivAt (besselI 0) (besselI 1 z) z := by
  rw [show besselI 0 = fun z => 1 / (2 * (Real.pi : ℂ)) * imom 0 z from funext besselI_zero',
    besselI_one']
  exact (imom_deriv 0 z).const_mul _

theorem I1_mul_deriv (z : ℂ) : HasDerivAt (fun z => z * besselI 1 z) (z * besselI 0 z) z := by
  rw [show besselI 1 = fun z => 1 / (2 * (Real.pi : ℂ)) * imom 1 z from funext besselI_one',
    besselI_zero']
  refine ((hasDerivAt_id z).mul ((imom_deriv 1 z).const_mul _)).congr_deriv ?_
  have := imom_parts z
  simp only [id]
  linear_combination -(1 / (2 * (Real.pi : ℂ))) * this

theorem I1_deriv {z : ℂ} (hz : z ≠ 0) : HasDerivAt (besselI 1) (besselI 0 z - besselI 1 z / z) z := by
  rw [show besselI 1 = fun z => 1 / (2 * (Real.pi : ℂ)) * imom 1 z from funext besselI_one',
    besselI_zero']
  refine ((imom_deriv 1 z).const_mul _).congr_deriv ?_
  have := imom_parts z
  field_simp
  linear_combination -this

theorem I2_eq {z : ℂ} (hz : z ≠ 0) : besselI 2 z = besselI 0 z - 2 * besselI 1 z / z := by
  rw [besselI_two', besselI_zero', besselI_one']
  have := imom_parts z
  field_simp
  linear_combination -2 * this

theorem besselI_diff (n : ℕ) (hn : n ≤ 1) (z : ℂ) : DifferentiableAt ℂ (besselI n) z := by
  interval_cases n
  · exact (I0_deriv z).differentiableAt
  · rw [show besselI 1 = fun z => 1 / (2 * (Real.pi : ℂ)) * imom 1 z from funext besselI_one']
    exact ((imom_deriv 1 z).const_mul _).differentiableAt

/-! ## Moments for `K` -/

/-- `∫₀^∞ cosh^k u exp(-z cosh u) du`. -/
noncomputable def kmom (k : ℕ) (z : ℂ) : ℂ :=
  ∫ u in Ioi (0 : ℝ), (Real.cosh u : ℂ) ^ k * Complex.exp (-z * Real.cosh u)

theorem besselK_zero' (z : ℂ) : besselK 0 z = kmom 0 z := by
  unfold besselK kmom; congr 1; funext u; simp

theorem besselK_one' (z : ℂ) : besselK 1 z = kmom 1 z := by
  unfold besselK kmom; congr 1; funext u; simp [mul_comm]

theorem cosh_lower (u : ℝ) : u ^ 2 / 4 ≤ Real.cosh u := by
  have h := Real.quadratic_le_exp_of_nonneg (abs_nonneg u)
  rw [← Real.cosh_abs, Real.cosh_eq, ← sq_abs u]
  have := Real.exp_pos (-|u|)
  have := abs_nonneg u
  linarith

theorem cosh_pow_exp_int {e : ℝ} (he : 0 < e) (k : ℕ) :
    IntegrableOn (fun u : ℝ => Real.cosh u ^ k * Real.exp (-e * Real.cosh u)) (Ioi 0) := by
  have hg : IntegrableOn (fun u : ℝ => ((k.factorial : ℝ) * (2 / e) ^ k) * Real.exp (-(e / 8) * u ^ 2))
      (Ioi 0) := ((integrable_exp_neg_mul_sq (by positivity)).integrableOn).const_mul _
  refine hg.mono' (by fun_prop) (Eventually.of_forall fun u => ?_)
  have hc : 0 < Real.cosh u := Real.cosh_pos u
  rw [Real.norm_of_nonneg (by positivity)]
  have h1 : Real.cosh u ^ k ≤ (k.factorial : ℝ) * (2 / e) ^ k * Real.exp (e / 2 * Real.cosh u) := by
    have := Real.pow_div_factorial_le_exp (e / 2 * Real.cosh u) (by positivity) k
    rw [div_le_iff₀ (by positivity)] at this
    calc Real.cosh u ^ k = (2 / e) ^ k * (e / 2 * Real.cosh u) ^ k := by
          rw [← mul_pow]; congr 1; field_simp
      _ ≤ (2 / e) ^ k * (Real.exp (e / 2 * Real.cosh u) * k.factorial) :=
          mul_le_mul_of_nonneg_left this (by positivity)
      _ = _ := by ring
  calc _ ≤ (k.factorial : ℝ) * (2 / e) ^ k * Real.exp (e / 2 * Real.cosh u) * Real.exp (-e * Real.cosh u) :=
        mul_le_mul_of_nonneg_right h1 (Real.exp_pos _).le
    _ = (k.factorial : ℝ) * (2 / e) ^ k * Real.exp (-(e / 2) * Real.cosh u) := by
        rw [mul_assoc, ← Real.exp_add]; congr 2; ring
    _ ≤ _ := by
        refine mul_le_mul_of_nonneg_left (Real.exp_le_exp.2 ?_) (by positivity)
        nlinarith [cosh_lower u]

theorem kint_norm (k : ℕ) (z : ℂ) (u : ℝ) :
    ‖(Real.cosh u : ℂ) ^ k * Complex.exp (-z * Real.cosh u)‖ =
      Real.cosh u ^ k * Real.exp (-z.re * Real.cosh u) := by
  rw [norm_mul, norm_pow, Complex.norm_real, Real.norm_of_nonneg (Real.cosh_pos u).le, Complex.norm_exp,
    mul_comm (-z), Complex.re_ofReal_mul, Complex.neg_re, mul_comm (Real.cosh u) (-z.re)]

theorem kint_cont (k : ℕ) (z : ℂ) :
    Continuous fun u : ℝ => (Real.cosh u : ℂ) ^ k * Complex.exp (-z * Real.cosh u) := by
  have : Continuous fun u : ℝ => (Real.cosh u : ℂ) := Complex.continuous_ofReal.comp Real.continuous_cosh
  fun_prop

theorem kint_int (k : ℕ) {z : ℂ} (hz : 0 < z.re) :
    IntegrableOn (fun u : ℝ => (Real.cosh u : ℂ) ^ k * Complex.exp (-z * Real.cosh u)) (Ioi 0) := by
  refine (cosh_pow_exp_int hz k).mono' (kint_cont k z).aestronglyMeasurable
    (Eventually.of_forall fun u => ?_)
  rw [kint_norm]

theorem kmom_deriv (k : ℕ) {z : ℂ} (hz : 0 < z.re) : HasDerivAt (kmom k) (-kmom (k + 1) z) z := by
  have hU : {w : ℂ | z.re / 2 < w.re} ∈ 𝓝 z :=
    (isOpen_lt continuous_const Complex.continuous_re).mem_nhds (by simp only [mem_ofPred_eq]; linarith)
  have h := (hasDerivAt_integral_of_dominated_loc_of_deriv_le (μ := volume.restrict (Ioi (0 : ℝ)))
    (F := fun (z : ℂ) (u : ℝ) => (Real.cosh u : ℂ) ^ k * Complex.exp (-z * Real.cosh u))
    (F' := fun (z : ℂ) (u : ℝ) => -((Real.cosh u : ℂ) ^ (k + 1) * Complex.exp (-z * Real.cosh u)))
    (bound := fun u => Real.cosh u ^ (k + 1) * Real.exp (-(z.re / 2) * Real.cosh u))
    hU ?_ ?_ ?_ ?_ ?_ ?_).2
  · refine h.congr_deriv ?_
    rw [integral_neg]; rfl
  · exact Eventually.of_forall fun z => (kint_cont k z).aestronglyMeasurable
  · exact kint_int k hz
  · exact (kint_cont (k + 1) z).neg.aestronglyMeasurable
  · refine Eventually.of_forall fun u w hw => ?_
    rw [norm_neg, kint_norm]
    refine mul_le_mul_of_nonneg_left (Real.exp_le_exp.2 ?_) (pow_nonneg (Real.cosh_pos u).le _)
    have := Real.cosh_pos u
    simp only [mem_ofPred_eq] at hw
    nlinarith
  · exact cosh_pow_exp_int (by positivity) (k + 1)
  · refine Eventually.of_forall fun u w _ => ?_
    have h1 : HasDerivAt (fun w : ℂ => -w * (Real.cosh u : ℂ)) (-(Real.cosh u : ℂ)) w := by
      simpa using ((hasDerivAt_id w).neg).mul_const (Real.cosh u : ℂ)
    exact (h1.cexp.const_mul ((Real.cosh u : ℂ) ^ k)).congr_deriv (by ring)

/-- Integration by parts: `z (∫cosh² - K₀) = K₁`. -/
theorem kmom_parts {z : ℂ} (hz : 0 < z.re) : z * (kmom 2 z - kmom 0 z) = kmom 1 z := by
  have hd : ∀ u : ℝ, HasDerivAt (fun u : ℝ => (Real.sinh u : ℂ) * Complex.exp (-z * Real.cosh u))
      ((Real.cosh u : ℂ) ^ 1 * Complex.exp (-z * Real.cosh u) -
        z * ((Real.cosh u : ℂ) ^ 2 * Complex.exp (-z * Real.cosh u) -
          (Real.cosh u : ℂ) ^ 0 * Complex.exp (-z * Real.cosh u))) u := by
    intro u
    have h1 : HasDerivAt (fun u : ℝ => (Real.sinh u : ℂ)) (Real.cosh u : ℂ) u :=
      (Real.hasDerivAt_sinh u).ofReal_comp
    have h2 : HasDerivAt (fun u : ℝ => -z * (Real.cosh u : ℂ)) (-z * ((Real.sinh u : ℝ) : ℂ)) u :=
      ((Real.hasDerivAt_cosh u).ofReal_comp).const_mul (-z)
    refine (h1.mul h2.cexp).congr_deriv ?_
    have := Complex.cosh_sq (u : ℂ)
    push_cast
    linear_combination (z * Complex.exp (-z * Complex.cosh u)) * this
  have hint : IntegrableOn (fun u : ℝ => (Real.cosh u : ℂ) ^ 1 * Complex.exp (-z * Real.cosh u) -
        z * ((Real.cosh u : ℂ) ^ 2 * Complex.exp (-z * Real.cosh u) -
          (Real.cosh u : ℂ) ^ 0 * Complex.exp (-z * Real.cosh u))) (Ioi 0) :=
    (kint_int 1 hz).sub (((kint_int 2 hz).sub (kint_int 0 hz)).const_mul z)
  have hlim : Tendsto (fun u : ℝ => (Real.sinh u : ℂ) * Complex.exp (-z * Real.cosh u)) atTop (𝓝 0) := by
    rw [tendsto_zero_iff_norm_tendsto_zero]
    have hx : Tendsto (fun x : ℝ => x ^ 1 * Real.exp (-z.re * x)) atTop (𝓝 0) := by
      have := Real.tendsto_pow_mul_exp_neg_atTop_nhds_zero 1
      have h2 := (this.comp (tendsto_id.const_mul_atTop hz)).const_mul (1 / z.re)
      rw [mul_zero] at h2
      refine h2.congr fun x => ?_
      simp only [Function.comp_def, id, pow_one]
      rw [show -z.re * x = -(z.re * x) by ring]
      field_simp
    have hcosh : Tendsto Real.cosh atTop atTop := by
      refine tendsto_atTop_mono cosh_lower ?_
      exact (tendsto_pow_atTop two_ne_zero).atTop_div_const (by norm_num)
    refine squeeze_zero' (Eventually.of_forall fun u => norm_nonneg _)
      ((eventually_ge_atTop 0).mono fun u hu => ?_) (hx.comp hcosh)
    have := kint_norm 0 z u
    rw [pow_zero, one_mul, pow_zero, one_mul] at this
    rw [norm_mul, this, Complex.norm_real, Real.norm_of_nonneg (Real.sinh_nonneg_iff.2 hu)]
    simp only [Function.comp_def, pow_one]
    exact mul_le_mul_of_nonneg_right (Real.sinh_lt_cosh u).le (Real.exp_pos _).le
  have h := integral_Ioi_of_hasDerivAt_of_tendsto' (fun u _ => hd u) hint hlim
  have e1 := integral_sub (kint_int 1 hz) (((kint_int 2 hz).sub (kint_int 0 hz)).const_mul z)
  have e2 := integral_sub (kint_int 2 hz) (kint_int 0 hz)
  simp only [Pi.sub_apply] at e1
  rw [e1, integral_const_mul, e2] at h
  simp only [Real.sinh_zero, Complex.ofReal_zero, zero_mul, sub_zero] at h
  unfold kmom
  linear_combination -h

theorem K0_deriv {z : ℂ} (hz : 0 < z.re) : HasDerivAt (besselK 0) (-besselK 1 z) z := by
  rw [show besselK 0 = kmom 0 from funext besselK_zero', besselK_one']
  exact kmom_deriv 0 hz

theorem ne_zero_of_re_pos {z : ℂ} (hz : 0 < z.re) : z ≠ 0 := by
  rintro rfl; simp at hz

theorem K1_deriv {z : ℂ} (hz : 0 < z.re) :
    HasDerivAt (besselK 1) (-besselK 0 z - besselK 1 z / z) z := by
  rw [show besselK 1 = kmom 1 from funext besselK_one', besselK_zero']
  refine (kmom_deriv 1 hz).congr_deriv ?_
  have := kmom_parts hz
  have h0 := ne_zero_of_re_pos hz
  field_simp
  linear_combination -this

theorem besselK_diff (n : ℕ) (hn : n ≤ 1) {z : ℂ} (hz : 0 < z.re) : DifferentiableAt ℂ (besselK n) z := by
  interval_cases n
  · exact (K0_deriv hz).differentiableAt
  · exact (K1_deriv hz).differentiableAt

end Verif.Lemmas
