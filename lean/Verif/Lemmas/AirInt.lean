import Verif.Lemmas.AirPot

/-!
# Derivatives of the potential of the airwave
-/

namespace Verif.Lemmas
open Verif.Spec MeasureTheory Set Filter Topology

/-! ## Closed forms -/

noncomputable def cR (z r : ℝ) : ℝ := Real.sqrt (z ^ 2 + r ^ 2)
noncomputable def aA (γ : ℂ) (z r : ℝ) : ℂ := γ * ((cR z r : ℂ) - z) / 2
noncomputable def bA (γ : ℂ) (z r : ℝ) : ℂ := γ * ((cR z r : ℂ) + z) / 2

noncomputable def phiC (γ : ℂ) (z r : ℝ) : ℂ := besselI 0 (aA γ z r) * besselK 0 (bA γ z r)
noncomputable def qC (γ : ℂ) (z r : ℝ) : ℂ :=
  aA γ z r * besselI 1 (aA γ z r) * besselK 0 (bA γ z r) +
    bA γ z r * besselI 0 (aA γ z r) * besselK 1 (bA γ z r)
noncomputable def dC (γ : ℂ) (z r : ℝ) : ℂ :=
  besselI 0 (aA γ z r) * besselK 0 (bA γ z r) - besselI 1 (aA γ z r) * besselK 1 (bA γ z r)
noncomputable def pC (γ : ℂ) (z r : ℝ) : ℂ :=
  4 * besselI 1 (aA γ z r) * besselK 0 (bA γ z r) - 4 * besselI 0 (aA γ z r) * besselK 1 (bA γ z r) +
    2 * besselI 1 (aA γ z r) * besselK 1 (bA γ z r) * (1 / aA γ z r + 1 / bA γ z r)
noncomputable def WC (γ : ℂ) (z r : ℝ) : ℂ := qC γ z r / cR z r
noncomputable def BC (γ : ℂ) (z r : ℝ) : ℂ :=
  qC γ z r / (cR z r : ℂ) ^ 3 + γ ^ 2 * z / (2 * (cR z r : ℂ) ^ 2) * dC γ z r
noncomputable def CC (γ : ℂ) (z r : ℝ) : ℂ :=
  -3 / (cR z r : ℂ) ^ 2 * BC γ z r + γ ^ 3 * z / (8 * (cR z r : ℂ) ^ 3) * pC γ z r

section
variable {γ : ℂ} {z r : ℝ}

theorem cR_pos (hz : 0 < z) (r : ℝ) : 0 < cR z r := Real.sqrt_pos.2 (by positivity)
theorem cR_sq (z r : ℝ) : cR z r ^ 2 = z ^ 2 + r ^ 2 := Real.sq_sqrt (by positivity)
theorem cR_gt (hr : r ≠ 0) : z < cR z r :=
  lt_of_le_of_lt (le_abs_self z) (Real.lt_sqrt_of_sq_lt (by rw [sq_abs]; have := pow_pos (abs_pos.2 hr) 2; rw [sq_abs] at this; linarith))

theorem cR_dr (hz : 0 < z) (r : ℝ) : HasDerivAt (fun r : ℝ => (cR z r : ℂ)) (r / cR z r) r := by
  have h1 : HasDerivAt (fun r : ℝ => z ^ 2 + r ^ 2) (2 * r) r := by
    have := ((hasDerivAt_id r).pow 2).const_add (z ^ 2)
    exact this.congr_deriv (by simp)
  have h2 := (h1.sqrt (by positivity : z ^ 2 + r ^ 2 ≠ 0)).ofReal_comp
  refine h2.congr_deriv ?_
  have : (Real.sqrt (z ^ 2 + r ^ 2) : ℂ) ≠ 0 := by exact_mod_cast (cR_pos hz r).ne'
  unfold cR
  push_cast
  field_simp

theorem cR_dz (hz : 0 < z) (r : ℝ) : HasDerivAt (fun z : ℝ => (cR z r : ℂ)) (z / cR z r) z := by
  have h1 : HasDerivAt (fun z : ℝ => z ^ 2 + r ^ 2) (2 * z) z := by
    have := ((hasDerivAt_id z).pow 2).add_const (r ^ 2)
    exact this.congr_deriv (by simp)
  have h2 := (h1.sqrt (by positivity : z ^ 2 + r ^ 2 ≠ 0)).ofReal_comp
  refine h2.congr_deriv ?_
  have : (Real.sqrt (z ^ 2 + r ^ 2) : ℂ) ≠ 0 := by exact_mod_cast (cR_pos hz r).ne'
  unfold cR
  push_cast
  field_simp

theorem aA_real (γ : ℂ) (z r : ℝ) : aA γ z r = (((cR z r - z) / 2 : ℝ) : ℂ) * γ := by
  unfold aA; push_cast; ring
theorem bA_real (γ : ℂ) (z r : ℝ) : bA γ z r = (((cR z r + z) / 2 : ℝ) : ℂ) * γ := by
  unfold bA; push_cast; ring

theorem bA_re (hγ : 0 < γ.re) (hz : 0 < z) (r : ℝ) : 0 < (bA γ z r).re := by
  rw [bA_real, Complex.re_ofReal_mul]
  have := cR_pos hz r
  positivity

theorem aA_re (hγ : 0 < γ.re) (hr : r ≠ 0) : 0 < (aA γ z r).re := by
  rw [aA_real, Complex.re_ofReal_mul]
  have := cR_gt (z := z) hr
  exact mul_pos (by linarith) hγ

theorem aA_dr (γ : ℂ) (hz : 0 < z) (r : ℝ) :
    HasDerivAt (fun r : ℝ => aA γ z r) (γ * r / (2 * cR z r)) r := by
  refine ((((cR_dr hz r).sub_const (z : ℂ)).const_mul γ).div_const 2).congr_deriv ?_
  field_simp
theorem bA_dr (γ : ℂ) (hz : 0 < z) (r : ℝ) :
    HasDerivAt (fun r : ℝ => bA γ z r) (γ * r / (2 * cR z r)) r := by
  refine ((((cR_dr hz r).add_const (z : ℂ)).const_mul γ).div_const 2).congr_deriv ?_
  field_simp

theorem zid (z : ℝ) : HasDerivAt (fun z : ℝ => (z : ℂ)) 1 z := (hasDerivAt_id z).ofReal_comp

theorem cRC_ne (hz : 0 < z) (r : ℝ) : (cR z r : ℂ) ≠ 0 := by exact_mod_cast (cR_pos hz r).ne'

theorem aA_dz (γ : ℂ) (hz : 0 < z) (r : ℝ) :
    HasDerivAt (fun z : ℝ => aA γ z r) (-aA γ z r / cR z r) z := by
  refine ((((cR_dz hz r).sub (zid z)).const_mul γ).div_const 2).congr_deriv ?_
  have := cRC_ne hz r
  unfold aA
  field_simp
  ring
theorem bA_dz (γ : ℂ) (hz : 0 < z) (r : ℝ) :
    HasDerivAt (fun z : ℝ => bA γ z r) (bA γ z r / cR z r) z := by
  refine ((((cR_dz hz r).add (zid z)).const_mul γ).div_const 2).congr_deriv ?_
  have := cRC_ne hz r
  unfold bA
  field_simp
  ring

theorem phiC_dz (hγ : 0 < γ.re) (hz : 0 < z) (r : ℝ) :
    HasDerivAt (fun z : ℝ => phiC γ z r) (-WC γ z r) z := by
  have h1 := HasDerivAt.comp z (I0_deriv (aA γ z r)) (aA_dz γ hz r)
  have h2 := HasDerivAt.comp z (K0_deriv (bA_re hγ hz r)) (bA_dz γ hz r)
  refine (h1.mul h2).congr_deriv ?_
  simp only [Function.comp_def]
  unfold WC qC
  field_simp
  ring

theorem qC_dr (hγ : 0 < γ.re) (hz : 0 < z) (r : ℝ) :
    HasDerivAt (fun r : ℝ => qC γ z r) (-(γ ^ 2 * r * z / (2 * cR z r)) * dC γ z r) r := by
  have hb := bA_re hγ hz r
  have hb0 := ne_zero_of_re_pos hb
  have h1 := HasDerivAt.comp r (I1_mul_deriv (aA γ z r)) (aA_dr γ hz r)
  have h2 := HasDerivAt.comp r (K0_deriv hb) (bA_dr γ hz r)
  have h3 := HasDerivAt.comp r (I0_deriv (aA γ z r)) (aA_dr γ hz r)
  have h4 := HasDerivAt.comp r (K1_deriv hb) (bA_dr γ hz r)
  refine ((h1.mul h2).add (((bA_dr γ hz r).mul h3).mul h4)).congr_deriv ?_
  simp only [Function.comp_def, Pi.mul_apply]
  have hR := cRC_ne hz r
  have hab : bA γ z r - aA γ z r = γ * z := by unfold aA bA; ring
  unfold dC
  generalize besselI 0 (aA γ z r) = i0
  generalize besselI 1 (aA γ z r) = i1
  generalize besselK 0 (bA γ z r) = k0
  generalize besselK 1 (bA γ z r) = k1
  generalize bA γ z r = b at *
  generalize aA γ z r = a at *
  field_simp
  linear_combination γ * r * (i1 * k1 - i0 * k0) * hab

theorem WC_dr (hγ : 0 < γ.re) (hz : 0 < z) (r : ℝ) :
    HasDerivAt (fun r : ℝ => WC γ z r) (-(r * BC γ z r)) r := by
  have hR := cRC_ne hz r
  refine ((qC_dr hγ hz r).div (cR_dr hz r) hR).congr_deriv ?_
  unfold BC
  field_simp
  ring

theorem dC_dr (hγ : 0 < γ.re) (hz : 0 < z) (hr : r ≠ 0) :
    HasDerivAt (fun r : ℝ => dC γ z r) (γ * r / (4 * cR z r) * pC γ z r) r := by
  have hb := bA_re hγ hz r
  have hb0 := ne_zero_of_re_pos hb
  have ha0 := ne_zero_of_re_pos (aA_re (z := z) hγ hr)
  have h1 := HasDerivAt.comp r (I1_deriv ha0) (aA_dr γ hz r)
  have h2 := HasDerivAt.comp r (K0_deriv hb) (bA_dr γ hz r)
  have h3 := HasDerivAt.comp r (I0_deriv (aA γ z r)) (aA_dr γ hz r)
  have h4 := HasDerivAt.comp r (K1_deriv hb) (bA_dr γ hz r)
  refine ((h3.mul h2).sub (h1.mul h4)).congr_deriv ?_
  simp only [Function.comp_def]
  have hR := cRC_ne hz r
  unfold pC
  field_simp
  ring

theorem BC_dr (hγ : 0 < γ.re) (hz : 0 < z) (hr : r ≠ 0) :
    HasDerivAt (fun r : ℝ => BC γ z r) (r * CC γ z r) r := by
  have hR := cRC_ne hz r
  have h1 := (qC_dr hγ hz r).div ((cR_dr hz r).pow 3) (pow_ne_zero 3 hR)
  have h2 : HasDerivAt (fun r : ℝ => γ ^ 2 * z / (2 * (cR z r : ℂ) ^ 2))
      (-(γ ^ 2 * z * r / (cR z r : ℂ) ^ 4)) r := by
    refine ((hasDerivAt_const r (γ ^ 2 * z : ℂ)).div (((cR_dr hz r).pow 2).const_mul 2)
      (mul_ne_zero two_ne_zero (pow_ne_zero 2 hR))).congr_deriv ?_
    simp only [Pi.pow_apply]
    push_cast
    field_simp
    ring
  refine (h1.add (h2.mul (dC_dr hγ hz hr))).congr_deriv ?_
  simp only [Pi.pow_apply]
  unfold CC BC
  push_cast
  field_simp
  ring

end

/-! ## Integrals -/

section
variable {γ z r : ℝ}

theorem gam_cont (γ : ℝ) : Continuous (gam γ) := by unfold gam; fun_prop

/-- `exp(-Γ z)`. -/
noncomputable def eg (γ z l : ℝ) : ℂ := Complex.exp (-(gam γ l * z))

theorem eg_cont (γ z : ℝ) : Continuous (eg γ z) := by
  unfold eg
  have := Complex.continuous_ofReal.comp (gam_cont γ)
  simp only [Function.comp_def] at this
  fun_prop

theorem eg_norm (γ z l : ℝ) : ‖eg γ z l‖ = Real.exp (-(gam γ l * z)) := by
  unfold eg
  rw [← Complex.ofReal_mul, ← Complex.ofReal_neg, Complex.norm_exp, Complex.ofReal_re]

theorem eg_le (γ : ℝ) (hz : 0 ≤ z) {l : ℝ} (hl : 0 < l) : ‖eg γ z l‖ ≤ Real.exp (-(z * l)) := by
  rw [eg_norm, Real.exp_le_exp]
  have := gam_ge γ hl.le
  nlinarith

theorem eg_int (γ : ℝ) (hz : 0 < z) {h : ℝ → ℂ} (hh : Continuous h) (k : ℕ)
    (hb : ∀ l : ℝ, 0 < l → ‖h l‖ ≤ l ^ k) : IntegrableOn (fun l => h l * eg γ z l) (Ioi 0) := by
  refine (pow_exp_int hz k).mono' (hh.mul (eg_cont γ z)).aestronglyMeasurable ?_
  refine (ae_restrict_mem measurableSet_Ioi).mono fun l hl => ?_
  rw [norm_mul]
  exact mul_le_mul (hb l hl) (eg_le γ hz.le hl) (norm_nonneg _) (pow_nonneg (le_of_lt hl) _)

theorem egJ0 (γ : ℝ) (hz : 0 < z) (r : ℝ) (k : ℕ) :
    IntegrableOn (fun l : ℝ => (l : ℂ) ^ k * besselJ0 (l * r) * eg γ z l) (Ioi 0) :=
  eg_int γ hz (cJ0 r k) k (bJ0 r k)
theorem egJ1 (γ : ℝ) (hz : 0 < z) (r : ℝ) (k : ℕ) :
    IntegrableOn (fun l : ℝ => (l : ℂ) ^ k * besselJ1 (l * r) * eg γ z l) (Ioi 0) :=
  eg_int γ hz (cJ1 r k) k (bJ1 r k)

theorem gamC_ne (hγ : 0 < γ) (l : ℝ) : (gam γ l : ℂ) ≠ 0 := by exact_mod_cast (gam_pos hγ l).ne'

theorem int_dz (hγ : 0 < γ) (hz : 0 < z) (r : ℝ) :
    HasDerivAt (fun z : ℝ => ∫ l in Ioi (0 : ℝ), besselJ0 (l * r) * (eg γ z l / gam γ l))
      (-∫ l in Ioi (0 : ℝ), (l : ℂ) ^ 0 * besselJ0 (l * r) * eg γ z l) z := by
  have hgc : Continuous fun l : ℝ => (gam γ l : ℂ) := Complex.continuous_ofReal.comp (gam_cont γ)
  have hc : ∀ z : ℝ, Continuous fun l : ℝ => besselJ0 (l * r) * (eg γ z l / gam γ l) := fun z =>
    (J0_cont.comp (mulr_cont r)).mul ((eg_cont γ z).div hgc (gamC_ne hγ))
  have hU : Ioi (z / 2) ∈ 𝓝 z := isOpen_Ioi.mem_nhds (by simp only [mem_Ioi]; linarith)
  have := hasDerivAt_integral_of_dominated_loc_of_deriv_le (μ := volume.restrict (Ioi (0 : ℝ)))
    (F := fun (z : ℝ) (l : ℝ) => besselJ0 (l * r) * (eg γ z l / gam γ l))
    (F' := fun (z : ℝ) (l : ℝ) => -((l : ℂ) ^ 0 * besselJ0 (l * r) * eg γ z l)) (x₀ := z)
    (s := Ioi (z / 2)) (bound := fun l => l ^ 0 * Real.exp (-(z / 2 * l))) hU
    (Eventually.of_forall fun z => (hc z).aestronglyMeasurable) ?_
    ((cJ0 r 0).mul (eg_cont γ z)).neg.aestronglyMeasurable ?_ (pow_exp_int (half_pos hz) 0) ?_
  · refine this.2.congr_deriv ?_
    rw [integral_neg]
  · have h0 := ((egJ0 γ hz r 0).norm.mul_const (1 / γ))
    refine h0.mono' (hc z).aestronglyMeasurable (Eventually.of_forall fun l => ?_)
    simp only [pow_zero, one_mul]
    have hg := gam_pos hγ l
    have hγg : γ ≤ gam γ l := Real.le_sqrt_of_sq_le (by nlinarith [sq_nonneg l])
    rw [norm_mul, norm_div, norm_mul, Complex.norm_real, Real.norm_of_nonneg hg.le, mul_assoc, mul_one_div]
    refine mul_le_mul_of_nonneg_left ?_ (norm_nonneg _)
    exact div_le_div_of_nonneg_left (norm_nonneg _) hγ hγg
  · refine (ae_restrict_mem measurableSet_Ioi).mono fun l hl y hy => ?_
    have hl : 0 < l := hl
    have hy : z / 2 < y := hy
    rw [norm_neg, norm_mul]
    refine mul_le_mul (bJ0 r 0 l hl) ((eg_le γ (by linarith) hl).trans (Real.exp_le_exp.2 ?_)) (norm_nonneg _)
      (by positivity)
    nlinarith
  · refine Eventually.of_forall fun l y _ => ?_
    have h1 : HasDerivAt (fun y : ℝ => -((gam γ l : ℂ) * y)) (-(gam γ l : ℂ)) y := by
      have := ((zid y).const_mul (gam γ l : ℂ)).neg
      rw [mul_one] at this
      exact this
    have h2 : HasDerivAt (fun y : ℝ => eg γ y l) (eg γ y l * -(gam γ l : ℂ)) y := h1.cexp
    refine ((h2.div_const (gam γ l : ℂ)).const_mul (besselJ0 (l * r))).congr_deriv ?_
    have := gamC_ne hγ l
    field_simp

theorem int_dr0 (γ : ℝ) (hz : 0 < z) (r : ℝ) :
    HasDerivAt (fun r : ℝ => ∫ l in Ioi (0 : ℝ), (l : ℂ) ^ 0 * besselJ0 (l * r) * eg γ z l)
      (-∫ l in Ioi (0 : ℝ), (l : ℂ) ^ 1 * besselJ1 (l * r) * eg γ z l) r := by
  have := hasDerivAt_integral_of_dominated_loc_of_deriv_le (μ := volume.restrict (Ioi (0 : ℝ)))
    (F := fun (r : ℝ) (l : ℝ) => (l : ℂ) ^ 0 * besselJ0 (l * r) * eg γ z l)
    (F' := fun (r : ℝ) (l : ℝ) => -((l : ℂ) ^ 1 * besselJ1 (l * r) * eg γ z l)) (x₀ := r)
    (s := univ) (bound := fun l => l ^ 1 * Real.exp (-(z * l))) univ_mem
    (Eventually.of_forall fun r => ((cJ0 r 0).mul (eg_cont γ z)).aestronglyMeasurable) (egJ0 γ hz r 0)
    ((cJ1 r 1).mul (eg_cont γ z)).neg.aestronglyMeasurable ?_ (pow_exp_int hz 1) ?_
  · refine this.2.congr_deriv ?_
    rw [integral_neg]
  · refine (ae_restrict_mem measurableSet_Ioi).mono fun l hl r _ => ?_
    have hl : 0 < l := hl
    rw [norm_neg, norm_mul]
    exact mul_le_mul (bJ1 r 1 l hl) (eg_le γ hz.le hl) (norm_nonneg _) (by positivity)
  · refine Eventually.of_forall fun l r _ => ?_
    have h1 : HasDerivAt (fun r : ℝ => l * r) l r := by simpa using (hasDerivAt_id r).const_mul l
    have h2 := (J0_deriv (l * r)).scomp r h1
    refine ((h2.const_mul ((l : ℂ) ^ 0)).mul_const (eg γ z l)).congr_deriv ?_
    simp only [Complex.real_smul]; ring

theorem int_dr1 (γ : ℝ) (hz : 0 < z) (hr : 0 < r) :
    HasDerivAt (fun r : ℝ => ∫ l in Ioi (0 : ℝ), (l : ℂ) ^ 1 * besselJ1 (l * r) * eg γ z l)
      ((∫ l in Ioi (0 : ℝ), (l : ℂ) ^ 2 * besselJ0 (l * r) * eg γ z l) -
        (∫ l in Ioi (0 : ℝ), (l : ℂ) ^ 1 * besselJ1 (l * r) * eg γ z l) / r) r := by
  have hU : Ioi (r / 2) ∈ 𝓝 r := isOpen_Ioi.mem_nhds (by simp only [mem_Ioi]; linarith)
  have hbi : IntegrableOn (fun l : ℝ => l ^ 2 * Real.exp (-(z * l)) +
      l ^ 1 * Real.exp (-(z * l)) * (2 / r)) (Ioi 0) :=
    (pow_exp_int hz 2).add ((pow_exp_int hz 1).mul_const _)
  have := hasDerivAt_integral_of_dominated_loc_of_deriv_le (μ := volume.restrict (Ioi (0 : ℝ)))
    (F := fun (ρ : ℝ) (l : ℝ) => (l : ℂ) ^ 1 * besselJ1 (l * ρ) * eg γ z l)
    (F' := fun (ρ : ℝ) (l : ℝ) => (l : ℂ) ^ 2 * besselJ0 (l * ρ) * eg γ z l -
      ((l : ℂ) ^ 1 * besselJ1 (l * ρ) * eg γ z l) / ρ) (x₀ := r)
    (s := Ioi (r / 2)) (bound := fun l => l ^ 2 * Real.exp (-(z * l)) +
      l ^ 1 * Real.exp (-(z * l)) * (2 / r)) hU
    (Eventually.of_forall fun r => ((cJ1 r 1).mul (eg_cont γ z)).aestronglyMeasurable) (egJ1 γ hz r 1)
    (((cJ0 r 2).mul (eg_cont γ z)).sub
      (((cJ1 r 1).mul (eg_cont γ z)).div_const _)).aestronglyMeasurable ?_ hbi ?_
  · refine this.2.congr_deriv ?_
    rw [integral_sub (egJ0 γ hz r 2) ((egJ1 γ hz r 1).div_const _), integral_div]
  · refine (ae_restrict_mem measurableSet_Ioi).mono fun l hl ρ hρ => ?_
    have hρ : r / 2 < ρ := hρ
    have hl : 0 < l := hl
    have hr0 : 0 < ρ := by linarith
    refine (norm_sub_le _ _).trans (add_le_add ?_ ?_)
    · rw [norm_mul]
      exact mul_le_mul (bJ0 ρ 2 l hl) (eg_le γ hz.le hl) (norm_nonneg _) (by positivity)
    · rw [norm_div, norm_mul, Complex.norm_real, Real.norm_of_nonneg hr0.le, div_eq_mul_inv]
      refine mul_le_mul (mul_le_mul (bJ1 ρ 1 l hl) (eg_le γ hz.le hl) (norm_nonneg _) (by positivity)) ?_
        (by positivity) (by positivity)
      rw [inv_eq_one_div, div_le_div_iff₀ hr0 hr]; linarith
  · refine (ae_restrict_mem measurableSet_Ioi).mono fun l hl ρ hρ => ?_
    have hρ : r / 2 < ρ := hρ
    have hl : 0 < l := hl
    have hr0 : 0 < ρ := by linarith
    have hl' : (l : ℂ) ≠ 0 := by exact_mod_cast hl.ne'
    have hr' : (ρ : ℂ) ≠ 0 := by exact_mod_cast hr0.ne'
    have h1 : HasDerivAt (fun r : ℝ => l * r) l ρ := by simpa using (hasDerivAt_id ρ).const_mul l
    have h2 := (J1_deriv (mul_pos hl hr0).ne').scomp ρ h1
    refine ((h2.const_mul ((l : ℂ) ^ 1)).mul_const (eg γ z l)).congr_deriv ?_
    simp only [Complex.real_smul]; push_cast; field_simp

/-! ## Values of the integrals -/

theorem int_phi (hγ : 0 < γ) (hz : 0 < z) (hr : 0 ≤ r) :
    (∫ l in Ioi (0 : ℝ), besselJ0 (l * r) * (eg γ z l / gam γ l)) = phiC γ z r := by
  rw [show (fun l : ℝ => besselJ0 (l * r) * (eg γ z l / gam γ l)) =
    fun l : ℝ => besselJ0 (l * r) * (Complex.exp (-(gam γ l * z)) / gam γ l) from rfl,
    (phi_int hγ hz hr).2]
  unfold phiC aA bA cR
  push_cast; rfl

theorem int_W (hγ : 0 < γ) (hz : 0 < z) (hr : 0 ≤ r) :
    (∫ l in Ioi (0 : ℝ), (l : ℂ) ^ 0 * besselJ0 (l * r) * eg γ z l) = WC γ z r := by
  have h1 := int_dz hγ hz r
  have h2 := phiC_dz (γ := (γ : ℂ)) (by simpa using hγ) hz r
  have h3 : (fun z : ℝ => ∫ l in Ioi (0 : ℝ), besselJ0 (l * r) * (eg γ z l / gam γ l)) =ᶠ[𝓝 z]
      fun z : ℝ => phiC γ z r := by
    filter_upwards [isOpen_Ioi.mem_nhds (show z ∈ Ioi 0 from hz)] with y hy
    exact int_phi hγ hy hr
  exact neg_injective ((h1.congr_of_eventuallyEq h3.symm).unique h2)

theorem int_A1 (hγ : 0 < γ) (hz : 0 < z) (hr : 0 < r) :
    (∫ l in Ioi (0 : ℝ), (l : ℂ) ^ 1 * besselJ1 (l * r) * eg γ z l) = r * BC γ z r := by
  have h1 := int_dr0 γ hz r
  have h2 := WC_dr (γ := (γ : ℂ)) (by simpa using hγ) hz r
  have h3 : (fun r : ℝ => ∫ l in Ioi (0 : ℝ), (l : ℂ) ^ 0 * besselJ0 (l * r) * eg γ z l) =ᶠ[𝓝 r]
      fun r : ℝ => WC γ z r := by
    filter_upwards [isOpen_Ioi.mem_nhds (show r ∈ Ioi 0 from hr)] with y hy
    exact int_W hγ hz (le_of_lt hy)
  exact neg_injective ((h1.congr_of_eventuallyEq h3.symm).unique h2)

theorem int_A0 (hγ : 0 < γ) (hz : 0 < z) (hr : 0 < r) :
    (∫ l in Ioi (0 : ℝ), (l : ℂ) ^ 2 * besselJ0 (l * r) * eg γ z l) =
      2 * BC γ z r + r ^ 2 * CC γ z r := by
  have h1 := int_dr1 γ hz hr
  have h2 := (zid r).mul (BC_dr (γ := (γ : ℂ)) (by simpa using hγ) hz hr.ne')
  have h3 : (fun r : ℝ => ∫ l in Ioi (0 : ℝ), (l : ℂ) ^ 1 * besselJ1 (l * r) * eg γ z l) =ᶠ[𝓝 r]
      fun r : ℝ => (r : ℂ) * BC γ z r := by
    filter_upwards [isOpen_Ioi.mem_nhds (show r ∈ Ioi 0 from hr)] with y hy
    exact int_A1 hγ hz hy
  have h4 := (h1.congr_of_eventuallyEq h3.symm).unique h2
  rw [int_A1 hγ hz hr] at h4
  have hr' : (r : ℂ) ≠ 0 := by exact_mod_cast hr.ne'
  rw [mul_div_cancel_left₀ _ hr'] at h4
  linear_combination h4

end

end Verif.Lemmas
