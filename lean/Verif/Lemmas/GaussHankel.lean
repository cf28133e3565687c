import Verif.Lemmas.Bessel
import Mathlib.Analysis.Calculus.ParametricIntervalIntegral
import Mathlib.Analysis.SpecialFunctions.Gaussian.GaussianIntegral

/-!
# Bessel functions: derivatives, bounds, and their integrals against a Gaussian
-/

namespace Verif.Lemmas
open Verif.Spec MeasureTheory Set Filter Topology

theorem pw_norm (x ψ : ℝ) : ‖pw x ψ‖ = 1 := by
  unfold pw
  rw [show -Complex.I * (x : ℂ) * (Real.cos ψ : ℂ) = ((-(x * Real.cos ψ) : ℝ) : ℂ) * Complex.I by
    push_cast; ring]
  exact Complex.norm_exp_ofReal_mul_I _

theorem trig_diff (p : ℝ → ℂ) (hp : Continuous p) (x : ℝ) :
    HasDerivAt (fun x : ℝ => ∫ ψ in (0 : ℝ)..(2 * Real.pi), p ψ * pw x ψ)
      (∫ ψ in (0 : ℝ)..(2 * Real.pi), p ψ * ((-Complex.I * Real.cos ψ) * pw x ψ)) x := by
  have hc : ∀ x : ℝ, Continuous fun ψ => p ψ * ((-Complex.I * (Real.cos ψ : ℂ)) * pw x ψ) := fun x =>
    hp.mul ((continuous_const.mul ccos_cont).mul (pw_cont x))
  refine (intervalIntegral.hasDerivAt_integral_of_dominated_loc_of_deriv_le
    (F := fun (x : ℝ) ψ => p ψ * pw x ψ)
    (F' := fun (x : ℝ) ψ => p ψ * ((-Complex.I * (Real.cos ψ : ℂ)) * pw x ψ))
    (s := univ) (bound := fun ψ => ‖p ψ‖) univ_mem ?_ ?_ ?_ ?_ ?_ ?_).2
  · exact Eventually.of_forall fun x => (hp.mul (pw_cont x)).aestronglyMeasurable
  · exact (hp.mul (pw_cont x)).intervalIntegrable _ _
  · exact (hc x).aestronglyMeasurable
  · refine Eventually.of_forall fun ψ _ y _ => ?_
    rw [norm_mul, norm_mul, pw_norm, norm_mul, norm_neg, Complex.norm_I, Complex.norm_real]
    have := Real.abs_cos_le_one ψ
    rw [← Real.norm_eq_abs] at this
    nlinarith [norm_nonneg (p ψ)]
  · exact hp.norm.intervalIntegrable _ _
  · refine Eventually.of_forall fun ψ _ y _ => ?_
    have h1 : HasDerivAt (fun y : ℝ => -Complex.I * (y : ℂ) * (Real.cos ψ : ℂ))
        (-Complex.I * (Real.cos ψ : ℂ)) y := by
      have := (((hasDerivAt_id y).ofReal_comp).const_mul (-Complex.I)).mul_const (Real.cos ψ : ℂ)
      exact this.congr_deriv (by simp)
    have h2 : HasDerivAt (fun y : ℝ => pw y ψ) (pw y ψ * (-Complex.I * (Real.cos ψ : ℂ))) y := h1.cexp
    exact (h2.const_mul (p ψ)).congr_deriv (by ring)

theorem J0_deriv (x : ℝ) : HasDerivAt besselJ0 (-besselJ1 x) x := by
  have h := (trig_diff (fun _ => 1) continuous_const x).const_mul (1 / (2 * (Real.pi : ℂ)))
  have e : besselJ0 = fun x : ℝ => 1 / (2 * (Real.pi : ℂ)) *
      ∫ ψ in (0 : ℝ)..(2 * Real.pi), (1 : ℂ) * pw x ψ := by
    funext x; simp only [one_mul]; rfl
  rw [e]
  refine h.congr_deriv ?_
  have e2 : (∫ ψ in (0 : ℝ)..(2 * Real.pi), (1 : ℂ) * ((-Complex.I * (Real.cos ψ : ℂ)) * pw x ψ)) =
      -Complex.I * ∫ ψ in (0 : ℝ)..(2 * Real.pi), (Real.cos ψ : ℂ) * pw x ψ := by
    rw [← intervalIntegral.integral_const_mul]
    congr 1; funext ψ; ring
  rw [e2, int_cos]
  have : (Real.pi : ℂ) ≠ 0 := by exact_mod_cast Real.pi_ne_zero
  field_simp
  rw [Complex.I_sq, neg_one_mul]

theorem J1_diff (x : ℝ) : HasDerivAt besselJ1 (1 / (2 * (Real.pi : ℂ)) *
    ∫ ψ in (0 : ℝ)..(2 * Real.pi), (Real.cos ψ : ℂ) ^ 2 * pw x ψ) x := by
  have h := (trig_diff (fun ψ => (Real.cos ψ : ℂ)) ccos_cont x).const_mul
    (Complex.I / (2 * (Real.pi : ℂ)))
  have e : besselJ1 = fun x : ℝ => Complex.I / (2 * (Real.pi : ℂ)) *
      ∫ ψ in (0 : ℝ)..(2 * Real.pi), (Real.cos ψ : ℂ) * pw x ψ := rfl
  rw [e]
  refine h.congr_deriv ?_
  have e2 : (∫ ψ in (0 : ℝ)..(2 * Real.pi), (Real.cos ψ : ℂ) * ((-Complex.I * (Real.cos ψ : ℂ)) * pw x ψ)) =
      -Complex.I * ∫ ψ in (0 : ℝ)..(2 * Real.pi), (Real.cos ψ : ℂ) ^ 2 * pw x ψ := by
    rw [← intervalIntegral.integral_const_mul]
    congr 1; funext ψ; ring
  rw [e2]
  linear_combination (-(1 / (2 * (Real.pi : ℂ)) *
    ∫ ψ in (0 : ℝ)..(2 * Real.pi), (Real.cos ψ : ℂ) ^ 2 * pw x ψ)) * Complex.I_sq

theorem J1_deriv {x : ℝ} (hx : x ≠ 0) : HasDerivAt besselJ1 (besselJ0 x - besselJ1 x / x) x := by
  refine (J1_diff x).congr_deriv ?_
  have hpi : (Real.pi : ℂ) ≠ 0 := by exact_mod_cast Real.pi_ne_zero
  have hx' : (x : ℂ) ≠ 0 := by exact_mod_cast hx
  have e : (∫ ψ in (0 : ℝ)..(2 * Real.pi), (Real.cos ψ : ℂ) ^ 2 * pw x ψ) =
      1 / 2 * ((∫ ψ in (0 : ℝ)..(2 * Real.pi), pw x ψ) +
        ∫ ψ in (0 : ℝ)..(2 * Real.pi), (Real.cos (2 * ψ) : ℂ) * pw x ψ) := by
    have hc2 : Continuous fun ψ : ℝ => (Real.cos (2 * ψ) : ℂ) * pw x ψ := ccos2_cont.mul (pw_cont x)
    rw [← intervalIntegral.integral_add ((pw_cont x).intervalIntegrable _ _)
      (hc2.intervalIntegrable _ _), ← intervalIntegral.integral_const_mul]
    congr 1; funext ψ
    rw [Real.cos_two_mul]; push_cast; ring
  rw [e, int_one, int_cos2 hx]
  field_simp
  ring

theorem J0_cont : Continuous besselJ0 := by
  rw [continuous_iff_continuousAt]; exact fun x => (J0_deriv x).continuousAt
theorem J1_cont : Continuous besselJ1 := by
  rw [continuous_iff_continuousAt]; exact fun x => (J1_diff x).continuousAt

theorem J0_zero : besselJ0 0 = 1 := by
  have hpi : (Real.pi : ℂ) ≠ 0 := by exact_mod_cast Real.pi_ne_zero
  simp [besselJ0]
  field_simp

theorem J0_norm (x : ℝ) : ‖besselJ0 x‖ ≤ 1 := by
  unfold besselJ0
  have h := intervalIntegral.norm_integral_le_of_norm_le_const (a := 0) (b := 2 * Real.pi) (C := 1)
    (f := fun φ : ℝ => Complex.exp (-Complex.I * x * Real.cos φ)) (fun φ _ => (pw_norm x φ).le)
  have hp := Real.pi_pos
  rw [sub_zero, abs_of_pos (by positivity), one_mul] at h
  rw [norm_mul, norm_div, norm_one, norm_mul, Complex.norm_real, Real.norm_of_nonneg hp.le,
    Complex.norm_ofNat]
  rw [one_div, inv_mul_le_iff₀ (by positivity), mul_one]
  exact h

theorem J1_norm (x : ℝ) : ‖besselJ1 x‖ ≤ 1 := by
  unfold besselJ1
  have h := intervalIntegral.norm_integral_le_of_norm_le_const (a := 0) (b := 2 * Real.pi) (C := 1)
    (f := fun φ : ℝ => (Real.cos φ : ℂ) * Complex.exp (-Complex.I * x * Real.cos φ)) (fun φ _ => by
      rw [norm_mul, show ‖Complex.exp (-Complex.I * x * Real.cos φ)‖ = 1 from pw_norm x φ, mul_one,
        Complex.norm_real, Real.norm_eq_abs]
      exact Real.abs_cos_le_one φ)
  have hp := Real.pi_pos
  rw [sub_zero, abs_of_pos (by positivity), one_mul] at h
  rw [norm_mul, norm_div, Complex.norm_I, norm_mul, Complex.norm_real, Real.norm_of_nonneg hp.le,
    Complex.norm_ofNat]
  rw [one_div, inv_mul_le_iff₀ (by positivity), mul_one]
  exact h

/-! ## Gaussian -/

noncomputable def gau (c : ℂ) (l : ℝ) : ℂ := Complex.exp (-c * (l : ℂ) ^ 2)

theorem gau_norm (c : ℂ) (l : ℝ) : ‖gau c l‖ = Real.exp (-c.re * l ^ 2) := by
  unfold gau
  rw [Complex.norm_exp]
  congr 1
  rw [← Complex.ofReal_pow, mul_comm, Complex.re_ofReal_mul, Complex.neg_re]; ring

theorem gau_cont (c : ℂ) : Continuous (gau c) := by unfold gau; fun_prop

theorem gau_deriv (c : ℂ) (l : ℝ) : HasDerivAt (gau c) (-2 * c * l * gau c l) l := by
  unfold gau
  have h : HasDerivAt (fun l : ℝ => -c * (l : ℂ) ^ 2) (-c * (2 * l)) l := by
    have := (((hasDerivAt_id l).ofReal_comp).pow 2).const_mul (-c)
    exact this.congr_deriv (by simp)
  exact h.cexp.congr_deriv (by ring)

theorem gau_pow_int {b : ℝ} (hb : 0 < b) (k : ℕ) :
    IntegrableOn (fun l : ℝ => l ^ k * Real.exp (-b * l ^ 2)) (Ioi 0) := by
  have := integrableOn_rpow_mul_exp_neg_mul_sq hb (s := k)
    (lt_of_lt_of_le (by norm_num) (Nat.cast_nonneg k))
  simpa using this

/-- Integrability of a function with polynomial growth against a Gaussian. -/
theorem gau_int {c : ℂ} (hc : 0 < c.re) {h : ℝ → ℂ} (hh : Continuous h) (k : ℕ)
    (hb : ∀ l : ℝ, 0 < l → ‖h l‖ ≤ l ^ k) : IntegrableOn (fun l => h l * gau c l) (Ioi 0) := by
  refine (gau_pow_int hc k).mono' (hh.mul (gau_cont c)).aestronglyMeasurable ?_
  refine (ae_restrict_mem measurableSet_Ioi).mono fun l hl => ?_
  rw [norm_mul, gau_norm]
  exact mul_le_mul_of_nonneg_right (hb l hl) (Real.exp_pos _).le

theorem mulr_cont (ρ : ℝ) : Continuous fun l : ℝ => l * ρ := continuous_id.mul continuous_const

theorem cJ0 (ρ : ℝ) (k : ℕ) : Continuous fun l : ℝ => (l : ℂ) ^ k * besselJ0 (l * ρ) :=
  (Complex.continuous_ofReal.pow k).mul (J0_cont.comp (mulr_cont ρ))
theorem cJ1 (ρ : ℝ) (k : ℕ) : Continuous fun l : ℝ => (l : ℂ) ^ k * besselJ1 (l * ρ) :=
  (Complex.continuous_ofReal.pow k).mul (J1_cont.comp (mulr_cont ρ))
theorem bJ0 (ρ : ℝ) (k : ℕ) (l : ℝ) (hl : 0 < l) : ‖(l : ℂ) ^ k * besselJ0 (l * ρ)‖ ≤ l ^ k := by
  rw [norm_mul, norm_pow, Complex.norm_real, Real.norm_of_nonneg hl.le]
  exact mul_le_of_le_one_right (by positivity) (J0_norm _)
theorem bJ1 (ρ : ℝ) (k : ℕ) (l : ℝ) (hl : 0 < l) : ‖(l : ℂ) ^ k * besselJ1 (l * ρ)‖ ≤ l ^ k := by
  rw [norm_mul, norm_pow, Complex.norm_real, Real.norm_of_nonneg hl.le]
  exact mul_le_of_le_one_right (by positivity) (J1_norm _)

theorem iJ0 {c : ℂ} (hc : 0 < c.re) (ρ : ℝ) (k : ℕ) :
    IntegrableOn (fun l : ℝ => (l : ℂ) ^ k * besselJ0 (l * ρ) * gau c l) (Ioi 0) :=
  gau_int hc (cJ0 ρ k) k (bJ0 ρ k)
theorem iJ1 {c : ℂ} (hc : 0 < c.re) (ρ : ℝ) (k : ℕ) :
    IntegrableOn (fun l : ℝ => (l : ℂ) ^ k * besselJ1 (l * ρ) * gau c l) (Ioi 0) :=
  gau_int hc (cJ1 ρ k) k (bJ1 ρ k)

/-- Integration by parts: `2c ∫ λ² J₁ = ρ ∫ λ J₀`. -/
theorem gau_parts {c : ℂ} (hc : 0 < c.re) (ρ : ℝ) :
    2 * c * ∫ l in Ioi (0 : ℝ), (l : ℂ) ^ 2 * besselJ1 (l * ρ) * gau c l =
      ρ * ∫ l in Ioi (0 : ℝ), (l : ℂ) ^ 1 * besselJ0 (l * ρ) * gau c l := by
  have i2 := iJ1 hc ρ 2
  have i1 := iJ0 hc ρ 1
  have i0 := iJ1 hc ρ 1
  have hd : ∀ l ∈ Ioi (0 : ℝ), HasDerivAt (fun l : ℝ => (l : ℂ) ^ 1 * besselJ1 (l * ρ) * gau c l)
      (ρ * ((l : ℂ) ^ 1 * besselJ0 (l * ρ) * gau c l) -
        2 * c * ((l : ℂ) ^ 2 * besselJ1 (l * ρ) * gau c l)) l := by
    intro l hl
    have hl : 0 < l := hl
    have hl' : (l : ℂ) ≠ 0 := by exact_mod_cast hl.ne'
    have hid : HasDerivAt (fun l : ℝ => (l : ℂ)) 1 l := (hasDerivAt_id l).ofReal_comp
    have hJ : HasDerivAt (fun l : ℝ => (l : ℂ) ^ 1 * besselJ1 (l * ρ)) (ρ * ((l : ℂ) * besselJ0 (l * ρ))) l := by
      rcases eq_or_ne ρ 0 with rfl | hρ
      · have e : (fun l : ℝ => (l : ℂ) ^ 1 * besselJ1 (l * 0)) = fun _ => 0 := by
          funext l
          have := int_cos2 (x := 1)
          have hz : besselJ1 0 = 0 := by
            simp only [besselJ1, Complex.ofReal_zero, mul_zero, zero_mul, Complex.exp_zero, mul_one]
            rw [intervalIntegral.integral_ofReal, integral_cos]
            simp
          rw [mul_zero, hz, mul_zero]
        rw [e, Complex.ofReal_zero, zero_mul]
        exact hasDerivAt_const _ _
      · have hρ' : (ρ : ℂ) ≠ 0 := by exact_mod_cast hρ
        have h1 : HasDerivAt (fun l : ℝ => l * ρ) ρ l := by simpa using (hasDerivAt_id l).mul_const ρ
        have h2 := (J1_deriv (mul_ne_zero hl.ne' hρ)).scomp l h1
        have h3 := (hid.pow 1).mul h2
        refine h3.congr_deriv ?_
        simp only [Function.comp, Complex.real_smul]
        push_cast
        simp
        field_simp
        ring
    refine (hJ.mul (gau_deriv c l)).congr_deriv ?_
    ring
  have hi : IntegrableOn (fun l : ℝ => ρ * ((l : ℂ) ^ 1 * besselJ0 (l * ρ) * gau c l) -
        2 * c * ((l : ℂ) ^ 2 * besselJ1 (l * ρ) * gau c l)) (Ioi 0) :=
    (i1.const_mul _).sub (i2.const_mul _)
  have ht := tendsto_zero_of_hasDerivAt_of_integrableOn_Ioi hd hi i0
  have := integral_Ioi_of_hasDerivAt_of_tendsto
    ((cJ1 ρ 1).mul (gau_cont c)).continuousWithinAt hd hi ht
  rw [integral_sub (i1.const_mul _) (i2.const_mul _), integral_const_mul, integral_const_mul] at this
  simp at this ⊢
  linear_combination -this

/-- Derivative of the Gaussian transform with respect to the offset. -/
theorem gau_drho {c : ℂ} (hc : 0 < c.re) (ρ : ℝ) :
    HasDerivAt (fun ρ : ℝ => ∫ l in Ioi (0 : ℝ), (l : ℂ) ^ 1 * besselJ0 (l * ρ) * gau c l)
      (-∫ l in Ioi (0 : ℝ), (l : ℂ) ^ 2 * besselJ1 (l * ρ) * gau c l) ρ := by
  have := hasDerivAt_integral_of_dominated_loc_of_deriv_le (μ := volume.restrict (Ioi (0 : ℝ)))
    (F := fun (ρ : ℝ) (l : ℝ) => (l : ℂ) ^ 1 * besselJ0 (l * ρ) * gau c l)
    (F' := fun (ρ : ℝ) (l : ℝ) => -((l : ℂ) ^ 2 * besselJ1 (l * ρ) * gau c l)) (x₀ := ρ)
    (s := univ) (bound := fun l => l ^ 2 * Real.exp (-c.re * l ^ 2)) univ_mem
    (Eventually.of_forall fun r => ((cJ0 r 1).mul (gau_cont c)).aestronglyMeasurable) (iJ0 hc ρ 1)
    ((cJ1 ρ 2).mul (gau_cont c)).neg.aestronglyMeasurable ?_ (gau_pow_int hc 2) ?_
  · refine this.2.congr_deriv ?_
    rw [integral_neg]
  · refine (ae_restrict_mem measurableSet_Ioi).mono fun l hl r _ => ?_
    rw [norm_neg, norm_mul, gau_norm]
    exact mul_le_mul_of_nonneg_right (bJ1 r 2 l hl) (Real.exp_pos _).le
  · refine Eventually.of_forall fun l r _ => ?_
    have h1 : HasDerivAt (fun r : ℝ => l * r) l r := by simpa using (hasDerivAt_id r).const_mul l
    have h2 := (J0_deriv (l * r)).scomp r h1
    refine ((h2.const_mul ((l : ℂ) ^ 1)).mul_const (gau c l)).congr_deriv ?_
    simp only [Complex.real_smul]; ring

/-- Weber's integral. -/
theorem gau_J0 {c : ℂ} (hc : 0 < c.re) (ρ : ℝ) :
    ∫ l in Ioi (0 : ℝ), (l : ℂ) ^ 1 * besselJ0 (l * ρ) * gau c l =
      Complex.exp (-(ρ : ℂ) ^ 2 / (4 * c)) / (2 * c) := by
  have hc0 : c ≠ 0 := fun e => by rw [e] at hc; simp at hc
  set W : ℝ → ℂ := fun ρ => ∫ l in Ioi (0 : ℝ), (l : ℂ) ^ 1 * besselJ0 (l * ρ) * gau c l
  have hW : ∀ ρ : ℝ, HasDerivAt W (-(ρ / (2 * c)) * W ρ) ρ := by
    intro ρ
    refine (gau_drho hc ρ).congr_deriv ?_
    have := gau_parts hc ρ
    change 2 * c * (∫ l in Ioi (0 : ℝ), (l : ℂ) ^ 2 * besselJ1 (l * ρ) * gau c l) = ρ * W ρ at this
    generalize (∫ l in Ioi (0 : ℝ), (l : ℂ) ^ 2 * besselJ1 (l * ρ) * gau c l) = V at *
    field_simp
    linear_combination -this
  have hV : ∀ ρ : ℝ, HasDerivAt (fun ρ : ℝ => W ρ * Complex.exp ((ρ : ℂ) ^ 2 / (4 * c))) 0 ρ := by
    intro ρ
    have h1 : HasDerivAt (fun ρ : ℝ => (ρ : ℂ) ^ 2 / (4 * c)) (2 * ρ / (4 * c)) ρ := by
      have := (((hasDerivAt_id ρ).ofReal_comp).pow 2).div_const (4 * c)
      exact this.congr_deriv (by simp)
    refine ((hW ρ).mul h1.cexp).congr_deriv ?_
    field_simp; ring
  have hconst := is_const_of_deriv_eq_zero (fun ρ => (hV ρ).differentiableAt) (fun ρ => (hV ρ).deriv) ρ 0
  have h0 : W 0 = 1 / (2 * c) := by
    simp only [W]
    have := integral_mul_cexp_neg_mul_sq hc
    rw [one_div, ← this]
    refine integral_congr_ae (Eventually.of_forall fun l => ?_)
    simp only [mul_zero, J0_zero, mul_one, pow_one]; rfl
  simp only [h0] at hconst
  have hE := Complex.exp_ne_zero ((ρ : ℂ) ^ 2 / (4 * c))
  change W ρ = _
  rw [neg_div, Complex.exp_neg]
  field_simp
  simp at hconst
  field_simp at hconst
  linear_combination hconst

theorem gau_J1 {c : ℂ} (hc : 0 < c.re) (ρ : ℝ) :
    ∫ l in Ioi (0 : ℝ), (l : ℂ) ^ 2 * besselJ1 (l * ρ) * gau c l =
      ρ / (4 * c ^ 2) * Complex.exp (-(ρ : ℂ) ^ 2 / (4 * c)) := by
  have hc0 : c ≠ 0 := fun e => by rw [e] at hc; simp at hc
  have := gau_parts hc ρ
  rw [gau_J0 hc] at this
  refine mul_left_cancel₀ (mul_ne_zero two_ne_zero hc0) (this.trans ?_)
  field_simp
  try ring

theorem gau_J1_zero {c : ℂ} (hc : 0 < c.re) {ρ : ℝ} (hρ : ρ ≠ 0) :
    ∫ l in Ioi (0 : ℝ), (l : ℂ) ^ 0 * besselJ1 (l * ρ) * gau c l =
      (1 - Complex.exp (-(ρ : ℂ) ^ 2 / (4 * c))) / ρ := by
  have hc0 : c ≠ 0 := fun e => by rw [e] at hc; simp at hc
  have hρ' : (ρ : ℂ) ≠ 0 := by exact_mod_cast hρ
  have i1 := iJ1 hc ρ 0
  have i0 := iJ0 hc ρ 0
  have i2 := iJ0 hc ρ 1
  have hd : ∀ l ∈ Ioi (0 : ℝ), HasDerivAt (fun l : ℝ => (l : ℂ) ^ 0 * besselJ0 (l * ρ) * gau c l)
      (-ρ * ((l : ℂ) ^ 0 * besselJ1 (l * ρ) * gau c l) -
        2 * c * ((l : ℂ) ^ 1 * besselJ0 (l * ρ) * gau c l)) l := by
    intro l _
    have h1 : HasDerivAt (fun l : ℝ => l * ρ) ρ l := by simpa using (hasDerivAt_id l).mul_const ρ
    have h2 := ((J0_deriv (l * ρ)).scomp l h1).mul (gau_deriv c l)
    have e : (fun l : ℝ => (l : ℂ) ^ 0 * besselJ0 (l * ρ) * gau c l) =
        fun l : ℝ => besselJ0 (l * ρ) * gau c l := by funext l; simp
    rw [e]
    refine h2.congr_deriv ?_
    simp only [Function.comp, Complex.real_smul]; ring
  have hi : IntegrableOn (fun l : ℝ => -ρ * ((l : ℂ) ^ 0 * besselJ1 (l * ρ) * gau c l) -
        2 * c * ((l : ℂ) ^ 1 * besselJ0 (l * ρ) * gau c l)) (Ioi 0) :=
    (i1.const_mul _).sub (i2.const_mul _)
  have ht := tendsto_zero_of_hasDerivAt_of_integrableOn_Ioi hd hi i0
  have hcw : ContinuousWithinAt (fun l : ℝ => (l : ℂ) ^ 0 * besselJ0 (l * ρ) * gau c l) (Ici 0) 0 :=
    ((cJ0 ρ 0).mul (gau_cont c)).continuousWithinAt
  have := integral_Ioi_of_hasDerivAt_of_tendsto hcw hd hi ht
  rw [integral_sub (i1.const_mul _) (i2.const_mul _), integral_const_mul, integral_const_mul,
    gau_J0 hc] at this
  generalize (∫ l in Ioi (0 : ℝ), (l : ℂ) ^ 0 * besselJ1 (l * ρ) * gau c l) = V at *
  simp only [pow_zero, zero_mul, J0_zero, gau, Complex.ofReal_zero] at this ⊢
  rw [show -c * (0 : ℂ) ^ 2 = 0 by ring, Complex.exp_zero] at this
  field_simp at this ⊢
  linear_combination -this

end Verif.Lemmas
