import Verif.Lemmas.Graf
import Verif.Lemmas.GaussBessel
import Verif.Lemmas.Sommerfeld
import Mathlib.MeasureTheory.Function.JacobianOneDim

/-!
# The potential of the airwave: `∫ J₀(λr) exp(-Γz)/Γ dλ = I₀ K₀`
-/

namespace Verif.Lemmas
open Verif.Spec MeasureTheory Set Filter Topology

/-- `exp(-G t - Z/t)/t`. -/
noncomputable def kt (G Z t : ℝ) : ℝ := Real.exp (-G * t - Z / t) / t

theorem kt_le (G Z : ℝ) {t : ℝ} (ht : 0 < t) : kt G Z t ≤ dW 0 Z G t + dW 1 Z G t := by
  unfold kt dW
  have hs := Real.sqrt_pos.2 ht
  have h2 := Real.sq_sqrt ht.le
  have e : Real.exp (-G * t - Z / t) = Real.exp (-Z / t - G * t) := by congr 1; ring
  rw [e, pow_zero, pow_one, mul_one]
  have hE := Real.exp_pos (-Z / t - G * t)
  generalize Real.exp (-Z / t - G * t) = E at *
  rw [div_add_div _ _ hs.ne' (by positivity), div_le_div_iff₀ ht (by positivity)]
  set q := Real.sqrt t
  rw [← h2]
  have : E * (q * (q * q ^ 2)) = E * q ^ 4 := by ring
  have : (E * (q * q ^ 2) + q * E) * q ^ 2 = E * q ^ 3 * (q ^ 2 + 1) := by ring
  have : q * E * q ^ 2 * (q ^ 2 + 1) - E * q ^ 4 = E * q ^ 3 * (q ^ 2 - q + 1) := by ring
  have : 0 < E * q ^ 3 * (q ^ 2 - q + 1) := by
    have : 0 < q ^ 2 - q + 1 := by nlinarith [sq_nonneg (q - 1)]
    positivity
  nlinarith

theorem kt_nonneg (G Z : ℝ) {t : ℝ} (ht : 0 < t) : 0 ≤ kt G Z t := by unfold kt; positivity

theorem kt_cont (G Z : ℝ) : ContinuousOn (kt G Z) (Ioi 0) := by
  unfold kt
  have h0 : ∀ t ∈ Ioi (0 : ℝ), t ≠ 0 := fun t ht => (show 0 < t from ht).ne'
  refine ContinuousOn.div ?_ continuousOn_id h0
  refine Real.continuous_exp.comp_continuousOn (ContinuousOn.sub (by fun_prop) ?_)
  exact continuousOn_const.div continuousOn_id h0

theorem kt_int {G Z : ℝ} (hG : 0 < G) (hZ : 0 < Z) : IntegrableOn (kt G Z) (Ioi 0) := by
  refine ((dW_int 0 hZ hG).add (dW_int 1 hZ hG)).mono'
    ((kt_cont G Z).aestronglyMeasurable measurableSet_Ioi) ?_
  refine (ae_restrict_mem measurableSet_Ioi).mono fun t ht => ?_
  rw [Real.norm_of_nonneg (kt_nonneg G Z ht)]
  exact kt_le G Z ht

/-- `K₀` by the substitution `t = √(Z/G) exp(u)`. -/
theorem kt_K0 {G Z : ℝ} (hG : 0 < G) (hZ : 0 < Z) :
    ((∫ t in Ioi (0 : ℝ), kt G Z t : ℝ) : ℂ) = 2 * besselK 0 ((2 * Real.sqrt (G * Z) : ℝ) : ℂ) := by
  set κ := Real.sqrt (Z / G)
  have hκ : 0 < κ := Real.sqrt_pos.2 (by positivity)
  set y := 2 * Real.sqrt (G * Z)
  have eG : G * κ = y / 2 := by
    simp only [κ, y]
    rw [show G * Z = G ^ 2 * (Z / G) by field_simp, Real.sqrt_mul (by positivity), Real.sqrt_sq hG.le]; ring
  have eZ : Z / κ = y / 2 := by
    rw [div_eq_iff hκ.ne', ← eG]
    have : κ ^ 2 = Z / G := Real.sq_sqrt (by positivity)
    rw [mul_assoc, ← pow_two, this]; field_simp
  have hd : ∀ u ∈ (univ : Set ℝ), HasDerivWithinAt (fun u : ℝ => κ * Real.exp u) (κ * Real.exp u) univ u :=
    fun u _ => ((Real.hasDerivAt_exp u).const_mul κ).hasDerivWithinAt
  have hinj : InjOn (fun u : ℝ => κ * Real.exp u) univ := fun u _ v _ h =>
    Real.exp_injective (mul_left_cancel₀ hκ.ne' h)
  have himg : (fun u : ℝ => κ * Real.exp u) '' univ = Ioi 0 := by
    ext t
    constructor
    · rintro ⟨u, -, rfl⟩; exact mul_pos hκ (Real.exp_pos u)
    · intro ht
      have ht : 0 < t := ht
      refine ⟨Real.log (t / κ), mem_univ _, ?_⟩
      simp only [Real.exp_log (div_pos ht hκ)]; field_simp
  have h := integral_image_eq_integral_abs_deriv_smul MeasurableSet.univ hd hinj (kt G Z)
  rw [himg] at h
  have h2 : ∀ u : ℝ, |κ * Real.exp u| • kt G Z (κ * Real.exp u) = Real.exp (-(y * Real.cosh |u|)) := by
    intro u
    have he := Real.exp_pos u
    have hp := mul_pos hκ he
    rw [abs_of_pos hp, smul_eq_mul, kt, mul_div_cancel₀ _ hp.ne', Real.cosh_abs, Real.cosh_eq]
    congr 1
    rw [show Z / (κ * Real.exp u) = Z / κ * Real.exp (-u) by rw [Real.exp_neg]; field_simp, eZ,
      show -G * (κ * Real.exp u) = -(G * κ) * Real.exp u by ring, eG]
    ring
  simp only [h2, Measure.restrict_univ] at h
  rw [h, integral_comp_abs (f := fun u => Real.exp (-(y * Real.cosh u)))]
  push_cast
  rw [← integral_complex_ofReal]
  unfold besselK
  congr 2; funext u
  push_cast
  simp [neg_mul]

section
variable {γ z r : ℝ}

theorem phi_swap (hγ : 0 < γ) (hz : 0 < z) (hr : 0 ≤ r) :
    (∫ t in Ioi (0 : ℝ), (kt (γ ^ 2) (z ^ 2 / 4) t : ℂ) * ives 0 (r ^ 2 / (8 * t))) =
      2 * (besselI 0 ((γ * (Real.sqrt (z ^ 2 + r ^ 2) - z) / 2 : ℝ) : ℂ) *
        besselK 0 ((γ * (Real.sqrt (z ^ 2 + r ^ 2) + z) / 2 : ℝ) : ℂ)) := by
  have hpi : (Real.pi : ℂ) ≠ 0 := by exact_mod_cast Real.pi_ne_zero
  have h0 : (0 : ℝ) ≤ 2 * Real.pi := by have := Real.pi_pos; positivity
  set R := Real.sqrt (z ^ 2 + r ^ 2)
  have hR2 : R ^ 2 = z ^ 2 + r ^ 2 := Real.sq_sqrt (by positivity)
  have hR : z ≤ R := Real.le_sqrt_of_sq_le (by nlinarith [sq_nonneg r])
  have hsw : Integrable (Function.uncurry fun (t θ : ℝ) =>
        ((kt (γ ^ 2) (z ^ 2 / 4 + r ^ 2 / 8 * (1 - Real.cos θ)) t : ℝ) : ℂ))
      ((volume.restrict (Ioi (0 : ℝ))).prod (volume.restrict (Ioc (0 : ℝ) (2 * Real.pi)))) := by
    have h1 : Integrable (fun _ : ℝ => (1 : ℝ)) (volume.restrict (Ioc (0 : ℝ) (2 * Real.pi))) :=
      integrable_const _
    refine ((kt_int (pow_pos hγ 2) (by positivity : 0 < z ^ 2 / 4)).mul_prod h1).mono' ?_ ?_
    · rw [Measure.prod_restrict]
      refine ContinuousOn.aestronglyMeasurable ?_ (measurableSet_Ioi.prod measurableSet_Ioc)
      refine Complex.continuous_ofReal.comp_continuousOn ?_
      unfold kt
      have hn : ∀ q ∈ (Ioi (0 : ℝ)) ×ˢ Ioc (0 : ℝ) (2 * Real.pi), q.1 ≠ 0 := fun q hq =>
        (show 0 < q.1 from hq.1).ne'
      refine ContinuousOn.div ?_ continuousOn_fst hn
      refine Real.continuous_exp.comp_continuousOn (ContinuousOn.sub (by fun_prop) ?_)
      exact ContinuousOn.div (by fun_prop) continuousOn_fst hn
    · rw [Measure.prod_restrict]
      refine (ae_restrict_mem (measurableSet_Ioi.prod measurableSet_Ioc)).mono fun q hq => ?_
      obtain ⟨t, θ⟩ := q
      have ht : 0 < t := hq.1
      simp only [Function.uncurry, mul_one]
      rw [Complex.norm_real, Real.norm_of_nonneg (kt_nonneg _ _ ht)]
      unfold kt
      refine div_le_div_of_nonneg_right (Real.exp_le_exp.2 ?_) ht.le
      have := Real.cos_le_one θ
      have h3 : z ^ 2 / 4 / t ≤ (z ^ 2 / 4 + r ^ 2 / 8 * (1 - Real.cos θ)) / t :=
        div_le_div_of_nonneg_right (by nlinarith [sq_nonneg r]) ht.le
      linarith
  have e1 : ∀ t ∈ Ioi (0 : ℝ), (kt (γ ^ 2) (z ^ 2 / 4) t : ℂ) * ives 0 (r ^ 2 / (8 * t)) =
      1 / (2 * (Real.pi : ℂ)) * ∫ θ in Ioc (0 : ℝ) (2 * Real.pi),
        ((kt (γ ^ 2) (z ^ 2 / 4 + r ^ 2 / 8 * (1 - Real.cos θ)) t : ℝ) : ℂ) := by
    intro t ht
    have ht : 0 < t := ht
    have htc : (t : ℂ) ≠ 0 := by exact_mod_cast ht.ne'
    rw [← intervalIntegral.integral_of_le h0]
    unfold ives
    rw [besselI_zero', imom]
    have e2 : ∀ θ : ℝ, ((kt (γ ^ 2) (z ^ 2 / 4 + r ^ 2 / 8 * (1 - Real.cos θ)) t : ℝ) : ℂ) =
        ((kt (γ ^ 2) (z ^ 2 / 4) t : ℝ) : ℂ) * (Complex.exp (-((r ^ 2 / (8 * t) : ℝ) : ℂ)) *
          ((Real.cos θ : ℂ) ^ 0 * iex ((r ^ 2 / (8 * t) : ℝ) : ℂ) θ)) := by
      intro θ
      unfold kt iex
      rw [pow_zero, one_mul, ← Complex.exp_add]
      push_cast
      rw [div_mul_eq_mul_div (Complex.exp (_ - _)), ← Complex.exp_add (_ - _)]
      congr 2
      field_simp
      ring
    simp only [e2]
    rw [intervalIntegral.integral_const_mul, intervalIntegral.integral_const_mul]
    ring
  rw [setIntegral_congr_fun measurableSet_Ioi e1, integral_const_mul, integral_integral_swap hsw]
  have e3 : ∀ θ : ℝ, (∫ t in Ioi (0 : ℝ),
      ((kt (γ ^ 2) (z ^ 2 / 4 + r ^ 2 / 8 * (1 - Real.cos θ)) t : ℝ) : ℂ)) =
      2 * besselK 0 ((Real.sqrt ((γ * (R - z) / 2) ^ 2 + (γ * (R + z) / 2) ^ 2 -
        2 * (γ * (R - z) / 2) * (γ * (R + z) / 2) * Real.cos θ) : ℝ) : ℂ) := by
    intro θ
    have hc := Real.cos_le_one θ
    rw [integral_complex_ofReal, kt_K0 (pow_pos hγ 2)
      (by have := mul_nonneg (sq_nonneg r) (sub_nonneg.2 hc); have := pow_pos hz 2; nlinarith)]
    rw [show (γ * (R - z) / 2) ^ 2 + (γ * (R + z) / 2) ^ 2 -
        2 * (γ * (R - z) / 2) * (γ * (R + z) / 2) * Real.cos θ =
        2 ^ 2 * (γ ^ 2 * (z ^ 2 / 4 + r ^ 2 / 8 * (1 - Real.cos θ))) by
      linear_combination γ ^ 2 / 2 * (1 - Real.cos θ) * hR2, Real.sqrt_mul (by norm_num : (0 : ℝ) ≤ 2 ^ 2),
      Real.sqrt_sq (by norm_num : (0 : ℝ) ≤ 2)]
  simp only [e3]
  rw [← intervalIntegral.integral_of_le h0, intervalIntegral.integral_const_mul,
    graf (by have := sub_nonneg.2 hR; positivity) (by nlinarith)]
  field_simp

/-- Vertical wavenumber for a real `γ`. -/
noncomputable def gam (γ l : ℝ) : ℝ := Real.sqrt (l ^ 2 + γ ^ 2)

theorem gam_pos (hγ : 0 < γ) (l : ℝ) : 0 < gam γ l := Real.sqrt_pos.2 (by positivity)
theorem gam_sq (γ l : ℝ) : gam γ l ^ 2 = l ^ 2 + γ ^ 2 := Real.sq_sqrt (by positivity)
theorem gam_ge (γ : ℝ) {l : ℝ} (hl : 0 ≤ l) : l ≤ gam γ l :=
  Real.le_sqrt_of_sq_le (by nlinarith [sq_nonneg γ])

/-- The exponential functions by subordination. -/
theorem gam_kz (hγ : 0 < γ) (hz : 0 < z) (l : ℝ) :
    (∫ t in Ioi (0 : ℝ), kz 0 (1 * (1 * (l : ℂ) ^ 2 + (γ : ℂ) ^ 2)) ((z / 2 : ℂ) ^ 2) t) =
        (Real.sqrt Real.pi : ℂ) * Complex.exp (-(gam γ l * z)) / gam γ l ∧
    (∫ t in Ioi (0 : ℝ), kz 1 (1 * (1 * (l : ℂ) ^ 2 + (γ : ℂ) ^ 2)) ((z / 2 : ℂ) ^ 2) t) =
        (Real.sqrt Real.pi : ℂ) * Complex.exp (-(gam γ l * z)) / (z / 2) := by
  have hg := gam_pos hγ l
  have e : (1 * (1 * (l : ℂ) ^ 2 + (γ : ℂ) ^ 2)) = (gam γ l : ℂ) ^ 2 := by
    have := gam_sq γ l
    rw [one_mul, one_mul]; exact_mod_cast this.symm
  have hzz : ((z : ℂ) / 2) = ((z / 2 : ℝ) : ℂ) := by push_cast; ring
  have h := kz_roots (γ := (gam γ l : ℂ)) (R := (z : ℂ) / 2) (by simpa using hg)
    (by rw [hzz, Complex.ofReal_re]; positivity)
    (by rw [← Complex.ofReal_pow, Complex.ofReal_re]; positivity)
    (by rw [hzz, ← Complex.ofReal_pow, Complex.ofReal_re]; positivity)
  simp only at h
  rw [e, h.1, h.2.1]
  have : Complex.exp (-(2 * ((z : ℂ) / 2) * gam γ l)) = Complex.exp (-(gam γ l * z)) := by congr 1; ring
  rw [this]
  exact ⟨rfl, rfl⟩

theorem half_sq_re (hz : 0 < z) : 0 < (((z : ℂ) / 2) ^ 2).re := by
  rw [show ((z : ℂ) / 2) ^ 2 = (((z / 2) ^ 2 : ℝ) : ℂ) by push_cast; ring, Complex.ofReal_re]; positivity

/-- `∫ J₀(λr) exp(-Γz)/Γ dλ = I₀(γ(R-z)/2) K₀(γ(R+z)/2)`. -/
theorem phi_int (hγ : 0 < γ) (hz : 0 < z) (hr : 0 ≤ r) :
    HasInt (fun l => besselJ0 (l * r) * (Complex.exp (-(gam γ l * z)) / gam γ l))
      (besselI 0 ((γ * (Real.sqrt (z ^ 2 + r ^ 2) - z) / 2 : ℝ) : ℂ) *
        besselK 0 ((γ * (Real.sqrt (z ^ 2 + r ^ 2) + z) / 2 : ℝ) : ℂ)) := by
  have hsp : (Real.sqrt Real.pi : ℂ) ≠ 0 := by
    exact_mod_cast (Real.sqrt_pos.2 Real.pi_pos).ne'
  have hg2 : 0 < (1 * (γ : ℂ) ^ 2).re := by
    rw [one_mul, ← Complex.ofReal_pow, Complex.ofReal_re]; positivity
  have h := (fub (a := 1) (g := (γ : ℂ) ^ 2) (c := 1) (by simp) hg2 (half_sq_re hz) 0 0 (cJ0 r 0) (bJ0 r 0)).smul
    (1 / (Real.sqrt Real.pi : ℂ))
  refine h.congr (fun l hl => ?_) ?_
  · rw [(gam_kz hγ hz l).1]; field_simp
  · have := phi_swap hγ hz hr
    have e : ∀ t ∈ Ioi (0 : ℝ), kz 0 (1 * (γ : ℂ) ^ 2) ((z / 2 : ℂ) ^ 2) t *
        (∫ l in Ioi (0 : ℝ), (l : ℂ) ^ 0 * besselJ0 (l * r) * gau (1 * 1 * t) l) =
        (Real.sqrt Real.pi : ℂ) / 2 * ((kt (γ ^ 2) (z ^ 2 / 4) t : ℂ) * ives 0 (r ^ 2 / (8 * t))) := by
      intro t ht
      have ht : 0 < t := ht
      have hs2 : ((Real.sqrt t : ℝ) : ℂ) ^ 2 = t := by exact_mod_cast Real.sq_sqrt ht.le
      have hsn : ((Real.sqrt t : ℝ) : ℂ) ≠ 0 := by exact_mod_cast (Real.sqrt_pos.2 ht).ne'
      rw [show (1 * 1 * (t : ℂ)) = (t : ℂ) by ring, gau_I0 ht]
      unfold kz kt
      push_cast
      rw [show -((z : ℂ) / 2) ^ 2 / t - 1 * (γ : ℂ) ^ 2 * t = -(γ : ℂ) ^ 2 * t - (z : ℂ) ^ 2 / 4 / t by ring,
        pow_zero, mul_one]
      rw [show ∀ E I : ℂ, E / (Real.sqrt t : ℂ) * ((Real.sqrt Real.pi : ℂ) / (2 * (Real.sqrt t : ℂ)) * I) =
        (Real.sqrt Real.pi : ℂ) / 2 * (E / (Real.sqrt t : ℂ) ^ 2 * I) by intro E I; field_simp, hs2]
    rw [setIntegral_congr_fun measurableSet_Ioi e, integral_const_mul, this]
    field_simp

end

end Verif.Lemmas
