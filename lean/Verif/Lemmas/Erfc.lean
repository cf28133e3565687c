import Verif.Model.Halfspace
import Mathlib.Analysis.SpecialFunctions.Gaussian.GaussianIntegral
import Mathlib.MeasureTheory.Integral.IntegralEqImproper
import Mathlib.MeasureTheory.Integral.IntervalIntegral.FundThmCalculus

/-!
# The complementary error function: derivative and limits
-/

namespace Verif.Lemmas
open MeasureTheory Set Filter Topology Verif.Halfspace

theorem gauss_int : Integrable (fun u : ℝ => Real.exp (-u ^ 2)) := by
  have := integrable_exp_neg_mul_sq (b := 1) one_pos
  simpa using this

theorem gauss_total : ∫ u : ℝ, Real.exp (-u ^ 2) = Real.sqrt Real.pi := by
  have := integral_gaussian 1
  simpa using this

theorem gauss_Ioi (x : ℝ) : ∫ u in Ioi x, Real.exp (-u ^ 2) =
    (∫ u in Ioi (0 : ℝ), Real.exp (-u ^ 2)) - ∫ u in (0 : ℝ)..x, Real.exp (-u ^ 2) := by
  have := intervalIntegral.integral_interval_add_Ioi
    (gauss_int.integrableOn (s := Ioi (0 : ℝ))) (gauss_int.integrableOn (s := Ioi x))
  rw [← this]; ring

theorem erfc_hasDeriv (x : ℝ) :
    HasDerivAt erfc (-(2 / Real.sqrt Real.pi) * Real.exp (-x ^ 2)) x := by
  have h : erfc = fun x : ℝ => 2 / Real.sqrt Real.pi *
      ((∫ u in Ioi (0 : ℝ), Real.exp (-u ^ 2)) - ∫ u in (0 : ℝ)..x, Real.exp (-u ^ 2)) := by
    funext y; rw [erfc, gauss_Ioi]
  rw [h]
  have hc : Continuous fun u : ℝ => Real.exp (-u ^ 2) := by fun_prop
  have := (intervalIntegral.integral_hasDerivAt_right (hc.intervalIntegrable 0 x)
    (hc.stronglyMeasurableAtFilter _ _) hc.continuousAt)
  have h2 := (this.const_sub (∫ u in Ioi (0 : ℝ), Real.exp (-u ^ 2))).const_mul
    (2 / Real.sqrt Real.pi)
  refine h2.congr_deriv ?_
  ring

theorem erfc_atTop : Tendsto erfc atTop (𝓝 0) := by
  have h := intervalIntegral_tendsto_integral_Ioi (0 : ℝ)
    (gauss_int.integrableOn (s := Ioi (0 : ℝ))) tendsto_id
  have h2 := (h.const_sub (∫ u in Ioi (0 : ℝ), Real.exp (-u ^ 2))).const_mul
    (2 / Real.sqrt Real.pi)
  rw [sub_self, mul_zero] at h2
  refine h2.congr fun x => ?_
  rw [erfc, gauss_Ioi x]; rfl

theorem erfc_atBot : Tendsto erfc atBot (𝓝 2) := by
  have hpi : Real.sqrt Real.pi ≠ 0 := (Real.sqrt_pos.2 Real.pi_pos).ne'
  have h : Tendsto (fun x : ℝ => ∫ u in Iic x, Real.exp (-u ^ 2)) atBot (𝓝 0) := by
    have h := intervalIntegral_tendsto_integral_Iic (0 : ℝ)
      (gauss_int.integrableOn (s := Iic (0 : ℝ))) tendsto_id
    have h2 := h.const_sub (∫ u in Iic (0 : ℝ), Real.exp (-u ^ 2))
    rw [sub_self] at h2
    refine h2.congr fun x => ?_
    have := intervalIntegral.integral_Iic_sub_Iic (gauss_int.integrableOn (s := Iic x))
      (gauss_int.integrableOn (s := Iic (0 : ℝ)))
    simp only [id]
    rw [← this]; ring
  have h3 := (h.const_sub (Real.sqrt Real.pi)).const_mul (2 / Real.sqrt Real.pi)
  rw [sub_zero, div_mul_cancel₀ _ hpi] at h3
  refine h3.congr fun x => ?_
  rw [erfc]
  congr 1
  have := intervalIntegral.integral_Iic_add_Ioi (gauss_int.integrableOn (s := Iic x))
      (gauss_int.integrableOn (s := Ioi x))
  rw [← gauss_total, ← this]; ring

/-- Fundamental theorem on `(0, ∞)` for a non-negative derivative and a limit at `0+`. -/
theorem Ioi_ftc {g g' : ℝ → ℝ} {a b : ℝ} (hd : ∀ x : ℝ, 0 < x → HasDerivAt g (g' x) x)
    (hp : ∀ x : ℝ, 0 < x → 0 ≤ g' x) (h0 : Tendsto g (𝓝[>] 0) (𝓝 a)) (h1 : Tendsto g atTop (𝓝 b)) :
    IntegrableOn g' (Ioi 0) ∧ ∫ x in Ioi 0, g' x = b - a := by
  set G := Function.update g 0 a
  have hG : ∀ x : ℝ, 0 < x → G =ᶠ[𝓝 x] g := fun x hx => by
    filter_upwards [lt_mem_nhds hx] with y hy
    exact Function.update_of_ne hy.ne' _ _
  have hc : ContinuousWithinAt G (Ici 0) 0 := by
    rw [continuousWithinAt_update_same]
    have : Ici (0 : ℝ) \ {0} = Ioi 0 := by ext; simp [lt_iff_le_and_ne, eq_comm]
    rwa [this]
  have hd' : ∀ x ∈ Ioi (0 : ℝ), HasDerivAt G (g' x) x := fun x hx =>
    (hd x hx).congr_of_eventuallyEq (hG x hx)
  have h1' : Tendsto G atTop (𝓝 b) := by
    refine h1.congr' ?_
    filter_upwards [eventually_gt_atTop (0 : ℝ)] with y hy
    exact (Function.update_of_ne hy.ne' _ _).symm
  have hi := integrableOn_Ioi_deriv_of_nonneg hc hd' (fun x hx => hp x hx) h1'
  refine ⟨hi, ?_⟩
  have := integral_Ioi_of_hasDerivAt_of_tendsto hc hd' hi h1'
  rw [this]; simp [G]

end Verif.Lemmas
