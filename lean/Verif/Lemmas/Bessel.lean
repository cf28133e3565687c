import Verif.Spec.Maxwell3D
import Mathlib.MeasureTheory.Integral.IntervalIntegral.FundThmCalculus
import Mathlib.MeasureTheory.Integral.IntervalIntegral.Periodic
import Mathlib.Analysis.SpecialFunctions.Trigonometric.Deriv
import Mathlib.Analysis.SpecialFunctions.ExpDeriv

/-! Helper lemmas: angular integrals of plane waves. -/

namespace Verif.Lemmas
open Verif.Spec Complex MeasureTheory intervalIntegral

/-- plane wave at angle `ψ` from the observation direction -/
noncomputable def pw (x ψ : ℝ) : ℂ := Complex.exp (-I * x * Real.cos ψ)

theorem pw_cont (x : ℝ) : Continuous (pw x) := by
  unfold pw
  exact Complex.continuous_exp.comp
    (continuous_const.mul (Complex.continuous_ofReal.comp Real.continuous_cos))

theorem pw_period (x ψ : ℝ) : pw x (ψ + 2 * Real.pi) = pw x ψ := by
  unfold pw; rw [Real.cos_add_two_pi]

theorem pw_reflect (x ψ : ℝ) : pw x (2 * Real.pi - ψ) = pw x ψ := by
  unfold pw; rw [Real.cos_two_pi_sub]

theorem integral_odd {f : ℝ → ℂ} (hf : ∀ ψ, f (2 * Real.pi - ψ) = -f ψ) :
    ∫ ψ in (0 : ℝ)..(2 * Real.pi), f ψ = 0 := by
  have h := intervalIntegral.integral_comp_sub_left (a := 0) (b := 2 * Real.pi) f (2 * Real.pi)
  simp only [sub_self, sub_zero] at h
  simp only [hf, intervalIntegral.integral_neg] at h
  have : (2 : ℂ) * ∫ ψ in (0 : ℝ)..(2 * Real.pi), f ψ = 0 := by linear_combination -h
  simpa using this

theorem int_sin (x : ℝ) : ∫ ψ in (0 : ℝ)..(2 * Real.pi), (Real.sin ψ : ℂ) * pw x ψ = 0 := by
  apply integral_odd
  intro ψ
  rw [pw_reflect, Real.sin_two_pi_sub]; push_cast; ring

theorem int_sin2 (x : ℝ) :
    ∫ ψ in (0 : ℝ)..(2 * Real.pi), (Real.sin (2 * ψ) : ℂ) * pw x ψ = 0 := by
  apply integral_odd
  intro ψ
  rw [pw_reflect, show 2 * (2 * Real.pi - ψ) = 2 * Real.pi - 2 * ψ + 2 * Real.pi by ring,
    Real.sin_add_two_pi, Real.sin_two_pi_sub]
  push_cast; ring

theorem int_one (x : ℝ) :
    ∫ ψ in (0 : ℝ)..(2 * Real.pi), pw x ψ = 2 * Real.pi * besselJ0 x := by
  have : (Real.pi : ℂ) ≠ 0 := by exact_mod_cast Real.pi_ne_zero
  unfold besselJ0 pw; field_simp

theorem int_cos (x : ℝ) :
    ∫ ψ in (0 : ℝ)..(2 * Real.pi), (Real.cos ψ : ℂ) * pw x ψ = -(2 * Real.pi * I * besselJ1 x) := by
  have : (Real.pi : ℂ) ≠ 0 := by exact_mod_cast Real.pi_ne_zero
  have e : ∫ ψ in (0 : ℝ)..(2 * Real.pi), (Real.cos ψ : ℂ) * pw x ψ =
      ∫ φ in (0 : ℝ)..(2 * Real.pi), (Real.cos φ : ℂ) * Complex.exp (-I * x * Real.cos φ) := rfl
  rw [e]
  unfold besselJ1
  generalize (∫ φ in (0 : ℝ)..(2 * Real.pi), (Real.cos φ : ℂ) *
    Complex.exp (-I * x * Real.cos φ)) = C
  field_simp; rw [I_sq]; ring

theorem ccos_cont : Continuous fun ψ : ℝ => (Real.cos ψ : ℂ) :=
  Complex.continuous_ofReal.comp Real.continuous_cos
theorem csin_cont : Continuous fun ψ : ℝ => (Real.sin ψ : ℂ) :=
  Complex.continuous_ofReal.comp Real.continuous_sin
theorem ccos2_cont : Continuous fun ψ : ℝ => (Real.cos (2 * ψ) : ℂ) :=
  Complex.continuous_ofReal.comp (Real.continuous_cos.comp (continuous_const.mul continuous_id))
theorem csin2_cont : Continuous fun ψ : ℝ => (Real.sin (2 * ψ) : ℂ) :=
  Complex.continuous_ofReal.comp (Real.continuous_sin.comp (continuous_const.mul continuous_id))

theorem int_cos2 {x : ℝ} (hx : x ≠ 0) :
    ∫ ψ in (0 : ℝ)..(2 * Real.pi), (Real.cos (2 * ψ) : ℂ) * pw x ψ =
      -(2 * Real.pi * (2 / x * besselJ1 x - besselJ0 x)) := by
  have hx' : (x : ℂ) ≠ 0 := by exact_mod_cast hx
  -- fundamental theorem for sin ψ * pw
  have hd : ∀ ψ : ℝ, HasDerivAt (fun ψ : ℝ => (Real.sin ψ : ℂ) * pw x ψ)
      ((Real.cos ψ : ℂ) * pw x ψ +
        I * x / 2 * (pw x ψ - (Real.cos (2 * ψ) : ℂ) * pw x ψ)) ψ := by
    intro ψ
    have h1 := (Real.hasDerivAt_sin ψ).ofReal_comp
    have h2 : HasDerivAt (pw x) (pw x ψ * (-I * x * (-Real.sin ψ : ℝ))) ψ := by
      have := ((Real.hasDerivAt_cos ψ).ofReal_comp.const_mul (-I * (x : ℂ))).cexp
      exact this
    refine (h1.mul h2).congr_deriv ?_
    have hc : (Real.cos (2 * ψ) : ℂ) = 1 - 2 * (Real.sin ψ : ℂ) ^ 2 := by
      rw [Real.cos_two_mul, Real.cos_sq']; push_cast; ring
    rw [hc]; push_cast; ring
  have hcont : Continuous fun ψ : ℝ => ((Real.cos ψ : ℂ) * pw x ψ +
        I * x / 2 * (pw x ψ - (Real.cos (2 * ψ) : ℂ) * pw x ψ)) :=
    (ccos_cont.mul (pw_cont x)).add
      (continuous_const.mul ((pw_cont x).sub (ccos2_cont.mul (pw_cont x))))
  have hF := intervalIntegral.integral_eq_sub_of_hasDerivAt (a := 0) (b := 2 * Real.pi)
    (fun ψ _ => hd ψ) (hcont.intervalIntegrable _ _)
  rw [Real.sin_two_pi, Real.sin_zero] at hF
  have j1 : Continuous fun ψ : ℝ => (Real.cos ψ : ℂ) * pw x ψ := ccos_cont.mul (pw_cont x)
  have j2 : Continuous fun ψ : ℝ => (Real.cos (2 * ψ) : ℂ) * pw x ψ := ccos2_cont.mul (pw_cont x)
  have j3 : Continuous fun ψ : ℝ => I * x / 2 * (pw x ψ - (Real.cos (2 * ψ) : ℂ) * pw x ψ) :=
    continuous_const.mul ((pw_cont x).sub j2)
  rw [intervalIntegral.integral_add (j1.intervalIntegrable _ _) (j3.intervalIntegrable _ _),
    intervalIntegral.integral_const_mul,
    intervalIntegral.integral_sub ((pw_cont x).intervalIntegrable _ _)
      (j2.intervalIntegrable _ _), int_cos, int_one] at hF
  have hI : I ≠ 0 := I_ne_zero
  generalize (∫ ψ in (0 : ℝ)..(2 * Real.pi), (Real.cos (2 * ψ) : ℂ) * pw x ψ) = C at *
  have h3 : I * x * C = I * x * -(2 * Real.pi * (2 / x * besselJ1 x - besselJ0 x)) := by
    field_simp
    simp only [ofReal_zero, zero_mul, sub_self] at hF
    field_simp at hF
    rw [mul_zero] at hF
    have hF' := (mul_eq_zero.1 hF).resolve_left hI
    linear_combination -hF'
  exact mul_left_cancel₀ (mul_ne_zero hI hx') h3

/-- shift of the integration angle -/
theorem int_shift {f : ℝ → ℂ} (hf : ∀ φ, f (φ + 2 * Real.pi) = f φ) (θ : ℝ) :
    ∫ φ in (0 : ℝ)..(2 * Real.pi), f (φ - θ) = ∫ ψ in (0 : ℝ)..(2 * Real.pi), f ψ := by
  rw [intervalIntegral.integral_comp_sub_right (a := 0) (b := 2 * Real.pi) f θ]
  have hp : Function.Periodic f (2 * Real.pi) := hf
  have := hp.intervalIntegral_add_eq (-θ) 0
  rw [zero_add] at this
  rw [← this]; congr 1 <;> ring

/-- trigonometric polynomial of degree two -/
noncomputable def trig (a0 ac as a2c a2s : ℂ) (φ : ℝ) : ℂ :=
  a0 + ac * Real.cos φ + as * Real.sin φ + a2c * Real.cos (2 * φ) + a2s * Real.sin (2 * φ)

theorem int_trig {x : ℝ} (hx : x ≠ 0) (a0 ac as a2c a2s : ℂ) :
    ∫ ψ in (0 : ℝ)..(2 * Real.pi), trig a0 ac as a2c a2s ψ * pw x ψ =
      2 * Real.pi * (a0 * besselJ0 x - I * ac * besselJ1 x -
        a2c * (2 / x * besselJ1 x - besselJ0 x)) := by
  have e : ∀ ψ : ℝ, trig a0 ac as a2c a2s ψ * pw x ψ = a0 * pw x ψ +
      (ac * ((Real.cos ψ : ℂ) * pw x ψ) + (as * ((Real.sin ψ : ℂ) * pw x ψ) +
      (a2c * ((Real.cos (2 * ψ) : ℂ) * pw x ψ) + a2s * ((Real.sin (2 * ψ) : ℂ) * pw x ψ)))) := by
    intro ψ; unfold trig; ring
  simp only [e]
  have k0 : Continuous fun ψ : ℝ => a0 * pw x ψ := continuous_const.mul (pw_cont x)
  have k1 : Continuous fun ψ : ℝ => ac * ((Real.cos ψ : ℂ) * pw x ψ) :=
    continuous_const.mul (ccos_cont.mul (pw_cont x))
  have k2 : Continuous fun ψ : ℝ => as * ((Real.sin ψ : ℂ) * pw x ψ) :=
    continuous_const.mul (csin_cont.mul (pw_cont x))
  have k3 : Continuous fun ψ : ℝ => a2c * ((Real.cos (2 * ψ) : ℂ) * pw x ψ) :=
    continuous_const.mul (ccos2_cont.mul (pw_cont x))
  have k4 : Continuous fun ψ : ℝ => a2s * ((Real.sin (2 * ψ) : ℂ) * pw x ψ) :=
    continuous_const.mul (csin2_cont.mul (pw_cont x))
  have k34 : Continuous fun ψ : ℝ => a2c * ((Real.cos (2 * ψ) : ℂ) * pw x ψ) +
      a2s * ((Real.sin (2 * ψ) : ℂ) * pw x ψ) := k3.add k4
  have k234 : Continuous fun ψ : ℝ => as * ((Real.sin ψ : ℂ) * pw x ψ) +
      (a2c * ((Real.cos (2 * ψ) : ℂ) * pw x ψ) + a2s * ((Real.sin (2 * ψ) : ℂ) * pw x ψ)) :=
    k2.add k34
  have k1234 : Continuous fun ψ : ℝ => ac * ((Real.cos ψ : ℂ) * pw x ψ) +
      (as * ((Real.sin ψ : ℂ) * pw x ψ) +
      (a2c * ((Real.cos (2 * ψ) : ℂ) * pw x ψ) + a2s * ((Real.sin (2 * ψ) : ℂ) * pw x ψ))) :=
    k1.add k234
  rw [intervalIntegral.integral_add (k0.intervalIntegrable _ _) (k1234.intervalIntegrable _ _),
    intervalIntegral.integral_add (k1.intervalIntegrable _ _) (k234.intervalIntegrable _ _),
    intervalIntegral.integral_add (k2.intervalIntegrable _ _) (k34.intervalIntegrable _ _),
    intervalIntegral.integral_add (k3.intervalIntegrable _ _) (k4.intervalIntegrable _ _),
    intervalIntegral.integral_const_mul, intervalIntegral.integral_const_mul,
    intervalIntegral.integral_const_mul, intervalIntegral.integral_const_mul,
    intervalIntegral.integral_const_mul, int_one, int_cos, int_sin, int_cos2 hx, int_sin2]
  ring

/-- The ring integral of a trigonometric polynomial. -/
theorem ring_trig {lam rho : ℝ} (hx : lam * rho ≠ 0) (θ : ℝ) (a0 ac as a2c a2s : ℂ) :
    ringIntegral (trig a0 ac as a2c a2s) lam rho θ =
      lam / (2 * Real.pi) * (a0 * besselJ0 (lam * rho)
        - I * (ac * Real.cos θ + as * Real.sin θ) * besselJ1 (lam * rho)
        - (a2c * Real.cos (2 * θ) + a2s * Real.sin (2 * θ)) *
          (2 / ((lam * rho : ℝ) : ℂ) * besselJ1 (lam * rho) - besselJ0 (lam * rho))) := by
  have hpi : (Real.pi : ℂ) ≠ 0 := by exact_mod_cast Real.pi_ne_zero
  have e : ∀ φ : ℝ, trig a0 ac as a2c a2s φ *
      Complex.exp (-I * lam * rho * Real.cos (φ - θ)) =
      (fun ψ : ℝ => trig a0 (ac * Real.cos θ + as * Real.sin θ)
        (as * Real.cos θ - ac * Real.sin θ)
        (a2c * Real.cos (2 * θ) + a2s * Real.sin (2 * θ))
        (a2s * Real.cos (2 * θ) - a2c * Real.sin (2 * θ)) ψ * pw (lam * rho) ψ) (φ - θ) := by
    intro φ
    have h1 : Complex.exp (-I * lam * rho * Real.cos (φ - θ)) = pw (lam * rho) (φ - θ) := by
      unfold pw; push_cast; congr 1; ring
    rw [h1]
    simp only
    congr 1
    unfold trig
    have c1 : Real.cos φ = Real.cos (φ - θ) * Real.cos θ - Real.sin (φ - θ) * Real.sin θ := by
      rw [← Real.cos_add]; congr 1; ring
    have s1 : Real.sin φ = Real.sin (φ - θ) * Real.cos θ + Real.cos (φ - θ) * Real.sin θ := by
      rw [← Real.sin_add]; congr 1; ring
    have c2 : Real.cos (2 * φ) = Real.cos (2 * (φ - θ)) * Real.cos (2 * θ) -
        Real.sin (2 * (φ - θ)) * Real.sin (2 * θ) := by
      rw [← Real.cos_add]; congr 1; ring
    have s2 : Real.sin (2 * φ) = Real.sin (2 * (φ - θ)) * Real.cos (2 * θ) +
        Real.cos (2 * (φ - θ)) * Real.sin (2 * θ) := by
      rw [← Real.sin_add]; congr 1; ring
    rw [c1, s1, c2, s2]
    push_cast
    ring
  unfold ringIntegral
  rw [intervalIntegral.integral_congr (fun φ _ => e φ)]
  have hper : ∀ φ : ℝ, (fun ψ : ℝ => trig a0 (ac * Real.cos θ + as * Real.sin θ)
        (as * Real.cos θ - ac * Real.sin θ)
        (a2c * Real.cos (2 * θ) + a2s * Real.sin (2 * θ))
        (a2s * Real.cos (2 * θ) - a2c * Real.sin (2 * θ)) ψ * pw (lam * rho) ψ) (φ + 2 * Real.pi) =
      (fun ψ : ℝ => trig a0 (ac * Real.cos θ + as * Real.sin θ)
        (as * Real.cos θ - ac * Real.sin θ)
        (a2c * Real.cos (2 * θ) + a2s * Real.sin (2 * θ))
        (a2s * Real.cos (2 * θ) - a2c * Real.sin (2 * θ)) ψ * pw (lam * rho) ψ) φ := by
    intro φ
    simp only
    rw [pw_period]
    congr 1
    unfold trig
    have : 2 * (φ + 2 * Real.pi) = 2 * φ + 2 * Real.pi + 2 * Real.pi := by ring
    rw [this, Real.cos_add_two_pi, Real.sin_add_two_pi, Real.cos_add_two_pi, Real.sin_add_two_pi,
      Real.cos_add_two_pi, Real.sin_add_two_pi]
  refine (congrArg (fun t => (lam : ℂ) / (4 * Real.pi ^ 2) * t)
    ((int_shift hper θ).trans (int_trig hx _ _ _ _ _))).trans ?_
  field_simp; ring

end Verif.Lemmas
