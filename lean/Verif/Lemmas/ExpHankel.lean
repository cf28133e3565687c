import Verif.Lemmas.Sommerfeld
import Mathlib.Analysis.Fourier.Inversion

/-!
# Bessel functions against an exponential; inversion of the cosine transform
-/

namespace Verif.Lemmas
open Verif.Spec MeasureTheory Set Filter Topology

/-! ## Laplace transforms of Bessel functions -/

/-- `exp(-aλ)` -/
noncomputable def lap (a l : ℝ) : ℂ := Complex.exp (-(a : ℂ) * l)

theorem lap_norm (a l : ℝ) : ‖lap a l‖ = Real.exp (-(a * l)) := by
  rw [lap, Complex.norm_exp]; simp

theorem lap_cont (a : ℝ) : Continuous (lap a) := by unfold lap; fun_prop

theorem lap_deriv (a l : ℝ) : HasDerivAt (lap a) (-a * lap a l) l := by
  have h : HasDerivAt (fun l : ℝ => -(a : ℂ) * l) (-(a : ℂ) * 1) l :=
    ((hasDerivAt_id l).ofReal_comp).const_mul _
  refine h.cexp.congr_deriv ?_
  unfold lap; ring

theorem lap_int {a : ℝ} (ha : 0 < a) {h : ℝ → ℂ} (hh : Continuous h) (k : ℕ)
    (hb : ∀ l : ℝ, 0 < l → ‖h l‖ ≤ l ^ k) : IntegrableOn (fun l => h l * lap a l) (Ioi 0) := by
  refine (pow_exp_int ha k).mono' (hh.mul (lap_cont a)).aestronglyMeasurable ?_
  refine (ae_restrict_mem measurableSet_Ioi).mono fun l hl => ?_
  rw [norm_mul, lap_norm]
  exact mul_le_mul_of_nonneg_right (hb l hl) (Real.exp_pos _).le

theorem lJ0 {a : ℝ} (ha : 0 < a) (ρ : ℝ) (k : ℕ) :
    IntegrableOn (fun l : ℝ => (l : ℂ) ^ k * besselJ0 (l * ρ) * lap a l) (Ioi 0) :=
  lap_int ha (cJ0 ρ k) k (bJ0 ρ k)
theorem lJ1 {a : ℝ} (ha : 0 < a) (ρ : ℝ) (k : ℕ) :
    IntegrableOn (fun l : ℝ => (l : ℂ) ^ k * besselJ1 (l * ρ) * lap a l) (Ioi 0) :=
  lap_int ha (cJ1 ρ k) k (bJ1 ρ k)

theorem J1_zero : besselJ1 0 = 0 := by
  simp only [besselJ1, Complex.ofReal_zero, mul_zero, zero_mul, Complex.exp_zero, mul_one]
  rw [intervalIntegral.integral_ofReal, integral_cos]
  simp

theorem J1_moment {l : ℝ} (hl : 0 < l) (ρ : ℝ) :
    HasDerivAt (fun l : ℝ => (l : ℂ) ^ 1 * besselJ1 (l * ρ)) (ρ * ((l : ℂ) * besselJ0 (l * ρ))) l := by
  have hl' : (l : ℂ) ≠ 0 := by exact_mod_cast hl.ne'
  have hid : HasDerivAt (fun l : ℝ => (l : ℂ)) 1 l := (hasDerivAt_id l).ofReal_comp
  rcases eq_or_ne ρ 0 with rfl | hρ
  · have e : (fun l : ℝ => (l : ℂ) ^ 1 * besselJ1 (l * 0)) = fun _ => 0 := by
      funext l; rw [mul_zero, J1_zero, mul_zero]
    rw [e, Complex.ofReal_zero, zero_mul]
    exact hasDerivAt_const _ _
  · have hρ' : (ρ : ℂ) ≠ 0 := by exact_mod_cast hρ
    have h1 : HasDerivAt (fun l : ℝ => l * ρ) ρ l := by simpa using (hasDerivAt_id l).mul_const ρ
    have h2 := (J1_deriv (mul_ne_zero hl.ne' hρ)).scomp l h1
    have h3 := (hid.pow 1).mul h2
    refine h3.congr_deriv ?_
    simp only [Function.comp, Complex.real_smul]
    push_cast
    simp
    field_simp
    ring

theorem J0_at (l ρ : ℝ) : HasDerivAt (fun l : ℝ => besselJ0 (l * ρ)) (-(ρ * besselJ1 (l * ρ))) l := by
  have h1 : HasDerivAt (fun l : ℝ => l * ρ) ρ l := by simpa using (hasDerivAt_id l).mul_const ρ
  refine ((J0_deriv (l * ρ)).scomp l h1).congr_deriv ?_
  simp only [Complex.real_smul]; ring

section
variable {a : ℝ} (ha : 0 < a) (ρ : ℝ)
include ha

/-- `a ∫ J₀ + ρ ∫ J₁ = 1` -/
theorem lap_parts0 : a * (∫ l in Ioi (0 : ℝ), (l : ℂ) ^ 0 * besselJ0 (l * ρ) * lap a l) +
    ρ * (∫ l in Ioi (0 : ℝ), (l : ℂ) ^ 0 * besselJ1 (l * ρ) * lap a l) = 1 := by
  have i0 := lJ0 ha ρ 0
  have i1 := lJ1 ha ρ 0
  have hd : ∀ l ∈ Ioi (0 : ℝ), HasDerivAt (fun l : ℝ => (l : ℂ) ^ 0 * besselJ0 (l * ρ) * lap a l)
      (-ρ * ((l : ℂ) ^ 0 * besselJ1 (l * ρ) * lap a l) - a * ((l : ℂ) ^ 0 * besselJ0 (l * ρ) * lap a l)) l := by
    intro l _
    have e : (fun l : ℝ => (l : ℂ) ^ 0 * besselJ0 (l * ρ) * lap a l) =
        fun l : ℝ => besselJ0 (l * ρ) * lap a l := by funext l; simp
    rw [e]
    refine ((J0_at l ρ).mul (lap_deriv a l)).congr_deriv ?_
    ring
  have hi : IntegrableOn (fun l : ℝ => -ρ * ((l : ℂ) ^ 0 * besselJ1 (l * ρ) * lap a l) -
      a * ((l : ℂ) ^ 0 * besselJ0 (l * ρ) * lap a l)) (Ioi 0) := (i1.const_mul _).sub (i0.const_mul _)
  have ht := tendsto_zero_of_hasDerivAt_of_integrableOn_Ioi hd hi i0
  have hw : ContinuousWithinAt (fun l : ℝ => (l : ℂ) ^ 0 * besselJ0 (l * ρ) * lap a l) (Ici 0) 0 :=
    ((cJ0 ρ 0).mul (lap_cont a)).continuousWithinAt
  have := integral_Ioi_of_hasDerivAt_of_tendsto hw hd hi ht
  rw [integral_sub (i1.const_mul _) (i0.const_mul _), integral_const_mul, integral_const_mul] at this
  have z : (((0 : ℝ) : ℂ) ^ 0 * besselJ0 (0 * ρ) * lap a 0) = 1 := by simp [J0_zero, lap]
  rw [z] at this
  linear_combination -this

/-- `∫ J₀ = a ∫ λ J₀ + ρ ∫ λ J₁` -/
theorem lap_parts1 : ∫ l in Ioi (0 : ℝ), (l : ℂ) ^ 0 * besselJ0 (l * ρ) * lap a l =
    a * (∫ l in Ioi (0 : ℝ), (l : ℂ) ^ 1 * besselJ0 (l * ρ) * lap a l) +
    ρ * (∫ l in Ioi (0 : ℝ), (l : ℂ) ^ 1 * besselJ1 (l * ρ) * lap a l) := by
  have i0 := lJ0 ha ρ 0
  have i1 := lJ0 ha ρ 1
  have j1 := lJ1 ha ρ 1
  have hd : ∀ l ∈ Ioi (0 : ℝ), HasDerivAt (fun l : ℝ => (l : ℂ) ^ 1 * besselJ0 (l * ρ) * lap a l)
      ((l : ℂ) ^ 0 * besselJ0 (l * ρ) * lap a l - (ρ * ((l : ℂ) ^ 1 * besselJ1 (l * ρ) * lap a l) +
        a * ((l : ℂ) ^ 1 * besselJ0 (l * ρ) * lap a l))) l := by
    intro l _
    have hid : HasDerivAt (fun l : ℝ => (l : ℂ)) 1 l := (hasDerivAt_id l).ofReal_comp
    refine (((hid.pow 1).mul (J0_at l ρ)).mul (lap_deriv a l)).congr_deriv ?_
    simp
    ring
  have hi : IntegrableOn (fun l : ℝ => (l : ℂ) ^ 0 * besselJ0 (l * ρ) * lap a l -
      (ρ * ((l : ℂ) ^ 1 * besselJ1 (l * ρ) * lap a l) + a * ((l : ℂ) ^ 1 * besselJ0 (l * ρ) * lap a l))) (Ioi 0) :=
    i0.sub ((j1.const_mul _).add (i1.const_mul _))
  have ht := tendsto_zero_of_hasDerivAt_of_integrableOn_Ioi hd hi i1
  have hw : ContinuousWithinAt (fun l : ℝ => (l : ℂ) ^ 1 * besselJ0 (l * ρ) * lap a l) (Ici 0) 0 :=
    ((cJ0 ρ 1).mul (lap_cont a)).continuousWithinAt
  have := integral_Ioi_of_hasDerivAt_of_tendsto hw hd hi ht
  have hi2 : IntegrableOn (fun l : ℝ => ρ * ((l : ℂ) ^ 1 * besselJ1 (l * ρ) * lap a l) +
      a * ((l : ℂ) ^ 1 * besselJ0 (l * ρ) * lap a l)) (Ioi 0) := (j1.const_mul _).add (i1.const_mul _)
  rw [integral_sub i0 hi2, integral_add (j1.const_mul _) (i1.const_mul _),
    integral_const_mul, integral_const_mul] at this
  have z : (((0 : ℝ) : ℂ) ^ 1 * besselJ0 (0 * ρ) * lap a 0) = 0 := by simp
  rw [z] at this
  linear_combination this

/-- `a ∫ λ J₁ = ρ ∫ λ J₀` -/
theorem lap_parts2 : a * (∫ l in Ioi (0 : ℝ), (l : ℂ) ^ 1 * besselJ1 (l * ρ) * lap a l) =
    ρ * (∫ l in Ioi (0 : ℝ), (l : ℂ) ^ 1 * besselJ0 (l * ρ) * lap a l) := by
  have i1 := lJ0 ha ρ 1
  have j1 := lJ1 ha ρ 1
  have hd : ∀ l ∈ Ioi (0 : ℝ), HasDerivAt (fun l : ℝ => (l : ℂ) ^ 1 * besselJ1 (l * ρ) * lap a l)
      (ρ * ((l : ℂ) ^ 1 * besselJ0 (l * ρ) * lap a l) - a * ((l : ℂ) ^ 1 * besselJ1 (l * ρ) * lap a l)) l := by
    intro l hl
    refine ((J1_moment hl ρ).mul (lap_deriv a l)).congr_deriv ?_
    ring
  have hi : IntegrableOn (fun l : ℝ => ρ * ((l : ℂ) ^ 1 * besselJ0 (l * ρ) * lap a l) -
      a * ((l : ℂ) ^ 1 * besselJ1 (l * ρ) * lap a l)) (Ioi 0) := (i1.const_mul _).sub (j1.const_mul _)
  have ht := tendsto_zero_of_hasDerivAt_of_integrableOn_Ioi hd hi j1
  have hw : ContinuousWithinAt (fun l : ℝ => (l : ℂ) ^ 1 * besselJ1 (l * ρ) * lap a l) (Ici 0) 0 :=
    ((cJ1 ρ 1).mul (lap_cont a)).continuousWithinAt
  have := integral_Ioi_of_hasDerivAt_of_tendsto hw hd hi ht
  rw [integral_sub (i1.const_mul _) (j1.const_mul _), integral_const_mul, integral_const_mul] at this
  have z : (((0 : ℝ) : ℂ) ^ 1 * besselJ1 (0 * ρ) * lap a 0) = 0 := by simp
  rw [z] at this
  linear_combination -this

theorem lap_drho : HasDerivAt (fun ρ : ℝ => ∫ l in Ioi (0 : ℝ), (l : ℂ) ^ 0 * besselJ0 (l * ρ) * lap a l)
    (-∫ l in Ioi (0 : ℝ), (l : ℂ) ^ 1 * besselJ1 (l * ρ) * lap a l) ρ := by
  have := hasDerivAt_integral_of_dominated_loc_of_deriv_le (μ := volume.restrict (Ioi (0 : ℝ)))
    (F := fun (ρ : ℝ) (l : ℝ) => (l : ℂ) ^ 0 * besselJ0 (l * ρ) * lap a l)
    (F' := fun (ρ : ℝ) (l : ℝ) => -((l : ℂ) ^ 1 * besselJ1 (l * ρ) * lap a l)) (x₀ := ρ)
    (s := univ) (bound := fun l => l ^ 1 * Real.exp (-(a * l))) univ_mem
    (Eventually.of_forall fun r => ((cJ0 r 0).mul (lap_cont a)).aestronglyMeasurable) (lJ0 ha ρ 0)
    ((cJ1 ρ 1).mul (lap_cont a)).neg.aestronglyMeasurable ?_ (pow_exp_int ha 1) ?_
  · refine this.2.congr_deriv ?_
    rw [integral_neg]
  · refine (ae_restrict_mem measurableSet_Ioi).mono fun l hl r _ => ?_
    rw [norm_neg, norm_mul, lap_norm]
    exact mul_le_mul_of_nonneg_right (bJ1 r 1 l hl) (Real.exp_pos _).le
  · refine Eventually.of_forall fun l r _ => ?_
    have h1 : HasDerivAt (fun r : ℝ => l * r) l r := by simpa using (hasDerivAt_id r).const_mul l
    have h2 := (J0_deriv (l * r)).scomp r h1
    refine ((h2.const_mul ((l : ℂ) ^ 0)).mul_const (lap a l)).congr_deriv ?_
    simp only [Complex.real_smul]; ring

theorem hyp_pos : 0 < a ^ 2 + ρ ^ 2 := by positivity

/-- `∫ exp(-aλ) J₀(λρ) = 1/√(a² + ρ²)` and its relatives. -/
theorem lap_J : let R : ℂ := (Real.sqrt (a ^ 2 + ρ ^ 2) : ℝ)
    ∫ l in Ioi (0 : ℝ), (l : ℂ) ^ 0 * besselJ0 (l * ρ) * lap a l = 1 / R ∧
    ∫ l in Ioi (0 : ℝ), (l : ℂ) ^ 1 * besselJ0 (l * ρ) * lap a l = a / R ^ 3 ∧
    ∫ l in Ioi (0 : ℝ), (l : ℂ) ^ 1 * besselJ1 (l * ρ) * lap a l = ρ / R ^ 3 ∧
    ρ * ∫ l in Ioi (0 : ℝ), (l : ℂ) ^ 0 * besselJ1 (l * ρ) * lap a l = (R - a) / R := by
  intro R
  have ha' : (a : ℂ) ≠ 0 := by exact_mod_cast ha.ne'
  have hn : ∀ ρ : ℝ, ((a : ℂ) ^ 2 + (ρ : ℂ) ^ 2) ≠ 0 := fun ρ => by
    have := (hyp_pos ha ρ).ne'
    exact_mod_cast this
  have hs : ∀ ρ : ℝ, (Real.sqrt (a ^ 2 + ρ ^ 2) : ℂ) ^ 2 = (a : ℂ) ^ 2 + (ρ : ℂ) ^ 2 := fun ρ => by
    have := Real.sq_sqrt (hyp_pos ha ρ).le
    exact_mod_cast this
  have hR0 : ∀ ρ : ℝ, (Real.sqrt (a ^ 2 + ρ ^ 2) : ℂ) ≠ 0 := fun ρ h => by
    have := hs ρ; rw [h] at this; exact hn ρ (by rw [← this]; ring)
  set F : ℝ → ℂ := fun ρ => ∫ l in Ioi (0 : ℝ), (l : ℂ) ^ 0 * besselJ0 (l * ρ) * lap a l with hF
  have sol : ∀ ρ : ℝ, (∫ l in Ioi (0 : ℝ), (l : ℂ) ^ 1 * besselJ0 (l * ρ) * lap a l) = a * F ρ / (a ^ 2 + ρ ^ 2) ∧
      (∫ l in Ioi (0 : ℝ), (l : ℂ) ^ 1 * besselJ1 (l * ρ) * lap a l) = ρ * F ρ / (a ^ 2 + ρ ^ 2) := by
    intro ρ
    have h1 : F ρ = _ := lap_parts1 ha ρ
    have h2 := lap_parts2 ha ρ
    have h0 := hn ρ
    generalize (∫ l in Ioi (0 : ℝ), (l : ℂ) ^ 1 * besselJ0 (l * ρ) * lap a l) = V at *
    generalize (∫ l in Ioi (0 : ℝ), (l : ℂ) ^ 1 * besselJ1 (l * ρ) * lap a l) = W at *
    constructor
    · rw [eq_div_iff h0]; linear_combination (-a) * h1 + (-ρ) * h2
    · rw [eq_div_iff h0]; linear_combination (-ρ) * h1 + a * h2
  have hd : ∀ ρ : ℝ, HasDerivAt (fun ρ : ℝ => F ρ * (Real.sqrt (a ^ 2 + ρ ^ 2) : ℝ)) 0 ρ := by
    intro ρ
    have h1 : HasDerivAt (fun ρ : ℝ => a ^ 2 + ρ ^ 2) (2 * ρ) ρ := by
      simpa using ((hasDerivAt_id ρ).pow 2).const_add (a ^ 2)
    have h2 := (h1.sqrt (hyp_pos ha ρ).ne').ofReal_comp
    have h3 : HasDerivAt F _ ρ := lap_drho ha ρ
    refine (h3.mul h2).congr_deriv ?_
    rw [(sol ρ).2]
    have r0 := hR0 ρ
    have q := hs ρ
    have n0 := hn ρ
    push_cast
    field_simp
    linear_combination (-ρ * F ρ) * q
  have hc := is_const_of_deriv_eq_zero (fun ρ => (hd ρ).differentiableAt) (fun ρ => (hd ρ).deriv) ρ 0
  have h0 : F 0 = 1 / a := by
    have := lap_parts0 ha 0
    rw [Complex.ofReal_zero, zero_mul, add_zero] at this
    rw [eq_div_iff ha']; linear_combination this
  have e0 : Real.sqrt (a ^ 2 + 0 ^ 2) = a := by
    rw [show a ^ 2 + (0 : ℝ) ^ 2 = a ^ 2 by ring, Real.sqrt_sq ha.le]
  simp only [h0, e0] at hc
  have r0 : R ≠ 0 := hR0 ρ
  have q : R ^ 2 = (a : ℂ) ^ 2 + (ρ : ℂ) ^ 2 := hs ρ
  have key : F ρ = 1 / R := by
    rw [eq_div_iff r0]
    change F ρ * R = _ at hc
    rw [hc]; field_simp
  refine ⟨key, ?_, ?_, ?_⟩
  · rw [(sol ρ).1, key, ← q]; field_simp
  · rw [(sol ρ).2, key, ← q]; field_simp
  · have := lap_parts0 ha ρ
    change a * F ρ + _ = 1 at this
    rw [key] at this
    generalize (∫ l in Ioi (0 : ℝ), (l : ℂ) ^ 0 * besselJ1 (l * ρ) * lap a l) = V at *
    field_simp at this ⊢
    linear_combination this

end

/-! ## Inversion of the cosine transform -/

theorem half_line {F : ℝ → ℂ} (h : Integrable F) : ∫ x, F x = ∫ x in Ioi (0 : ℝ), (F x + F (-x)) := by
  have e := integral_comp_neg_Ioi 0 F
  rw [neg_zero] at e
  rw [← integral_add_compl (measurableSet_Ioi (a := (0 : ℝ))) h, compl_Ioi, ← e,
    integral_add h.integrableOn h.comp_neg.integrableOn]

theorem even_int {F : ℝ → ℂ} (h : IntegrableOn F (Ioi 0)) (he : ∀ x, F (-x) = F x) : Integrable F := by
  have h2 : IntegrableOn F (Iic 0) := by
    have e : F = fun x => F (-x) := by funext x; exact (he x).symm
    rw [e]
    have := (Measure.measurePreserving_neg (volume : Measure ℝ)).integrableOn_comp_preimage
      (Homeomorph.neg ℝ).measurableEmbedding (f := F) (s := Ici 0)
    have e2 : (Neg.neg ⁻¹' (Ici (0 : ℝ)) : Set ℝ) = Iic 0 := by ext x; simp
    rw [← e2]
    exact this.2 ((integrableOn_Ici_iff_integrableOn_Ioi (by simp)).2 h)
  have := h2.union h
  rwa [Iic_union_Ioi, integrableOn_univ] at this

theorem two_cos (x : ℝ) : Complex.exp ((x : ℝ) * Complex.I) + Complex.exp (((-x : ℝ) : ℂ) * Complex.I) =
    2 * (Real.cos x : ℂ) := by
  rw [Complex.ofReal_cos, Complex.cos]
  push_cast
  ring

/-- A continuous function whose cosine transform is integrable is `2/π` times the transform of its transform. -/
theorem cos_inversion {g G : ℝ → ℝ} (hg : Continuous g) (hgi : IntegrableOn g (Ioi 0))
    (hG : ∀ x, ∫ s in Ioi (0 : ℝ), g s * Real.cos (x * s) = G x) (hGi : IntegrableOn G (Ioi 0)) {b : ℝ}
    (hb : 0 ≤ b) : ∫ x in Ioi (0 : ℝ), G x * Real.cos (x * b) = Real.pi / 2 * g b := by
  have hpi := Real.pi_pos
  set h : ℝ → ℂ := fun x => (g |x| : ℝ) with hh
  have hc : Continuous h := Complex.continuous_ofReal.comp (hg.comp continuous_abs)
  have hi : Integrable h := by
    refine even_int ?_ fun x => by simp [hh]
    refine (Integrable.ofReal (𝕜 := ℂ) hgi).congr ?_
    refine (ae_restrict_mem measurableSet_Ioi).mono fun x hx => ?_
    simp only [hh, abs_of_pos (show 0 < x from hx)]; rfl
  have hF : ∀ w : ℝ, FourierTransform.fourier h w = 2 * (G (2 * Real.pi * w) : ℂ) := by
    intro w
    rw [Real.fourier_real_eq_integral_exp_smul]
    have hint : Integrable fun v : ℝ => Complex.exp (↑(-2 * Real.pi * v * w) * Complex.I) • h v := by
      refine hi.norm.mono' (Continuous.aestronglyMeasurable (by fun_prop)) (Eventually.of_forall fun v => ?_)
      rw [norm_smul, Complex.norm_exp_ofReal_mul_I, one_mul]
    rw [half_line hint, ← hG, ← integral_complex_ofReal, ← integral_const_mul]
    refine setIntegral_congr_fun measurableSet_Ioi fun v hv => ?_
    have hv : 0 < v := hv
    simp only [hh, abs_neg, abs_of_pos hv, smul_eq_mul]
    have e := two_cos (2 * Real.pi * w * v)
    rw [show -2 * Real.pi * v * w = -(2 * Real.pi * w * v) by ring,
      show -2 * Real.pi * -v * w = 2 * Real.pi * w * v by ring, ← add_mul, add_comm, e]
    push_cast; ring
  have hGe : ∀ x, G (-x) = G x := fun x => by
    rw [← hG, ← hG]; simp only [neg_mul, Real.cos_neg]
  have hGI : Integrable fun w : ℝ => 2 * (G (2 * Real.pi * w) : ℂ) := by
    have h1 : Integrable fun x : ℝ => (G x : ℂ) :=
      even_int (Integrable.ofReal (𝕜 := ℂ) hGi) fun x => by rw [hGe]
    exact (h1.comp_mul_left' (by positivity : 2 * Real.pi ≠ 0)).const_mul 2
  have hFe : FourierTransform.fourier h = fun w : ℝ => 2 * (G (2 * Real.pi * w) : ℂ) := funext hF
  have inv := hi.fourierInv_fourier_eq (by rw [hFe]; exact hGI) (v := b) hc.continuousAt
  rw [hFe, Real.fourierInv_eq'] at inv
  have hint : Integrable fun v : ℝ => Complex.exp (↑(2 * Real.pi * inner ℝ v b) * Complex.I) •
      (2 * (G (2 * Real.pi * v) : ℂ)) := by
    have hcont : Continuous fun v : ℝ => Complex.exp (↑(2 * Real.pi * inner ℝ v b) * Complex.I) := by fun_prop
    refine hGI.norm.mono' (hcont.aestronglyMeasurable.smul hGI.aestronglyMeasurable) (Eventually.of_forall fun v => ?_)
    rw [norm_smul, Complex.norm_exp_ofReal_mul_I, one_mul]
  rw [half_line hint] at inv
  have e : ∫ x in Ioi (0 : ℝ), (Complex.exp (↑(2 * Real.pi * inner ℝ x b) * Complex.I) •
      (2 * (G (2 * Real.pi * x) : ℂ)) + Complex.exp (↑(2 * Real.pi * inner ℝ (-x) b) * Complex.I) •
      (2 * (G (2 * Real.pi * (-x)) : ℂ))) =
      ((∫ x in Ioi (0 : ℝ), 4 * (G (2 * Real.pi * x) * Real.cos (2 * Real.pi * x * b)) : ℝ) : ℂ) := by
    rw [← integral_complex_ofReal]
    refine setIntegral_congr_fun measurableSet_Ioi fun x _ => ?_
    have i1 : inner ℝ x b = x * b := by simp [mul_comm]
    have i2 : inner ℝ (-x) b = -(x * b) := by simp [mul_comm]
    have e := two_cos (2 * Real.pi * x * b)
    simp only [smul_eq_mul]
    rw [i1, i2, show 2 * Real.pi * -x = -(2 * Real.pi * x) by ring, hGe,
      show 2 * Real.pi * (x * b) = 2 * Real.pi * x * b by ring,
      show 2 * Real.pi * -(x * b) = -(2 * Real.pi * x * b) by ring, ← add_mul, e]
    push_cast; ring
  rw [e, integral_const_mul, integral_comp_mul_left_Ioi (fun x => G x * Real.cos (x * b)) 0
    (by positivity : 0 < 2 * Real.pi)] at inv
  simp only [hh, abs_of_nonneg hb] at inv
  have inv' := Complex.ofReal_injective inv
  rw [mul_zero, smul_eq_mul] at inv'
  rw [← inv']
  have h2 : (2 * Real.pi)⁻¹ * 4 * (Real.pi / 2) = 1 := by field_simp; norm_num
  generalize (∫ x in Ioi (0 : ℝ), G x * Real.cos (x * b)) = V
  linear_combination (-V) * h2

end Verif.Lemmas
