import Verif.Lemmas.Laplace
import Mathlib.Analysis.Calculus.ParametricIntegral

/-!
# Subordination integrals for complex arguments

`kz n G Z t = exp(-Z/t - G t)/(√t tⁿ)`; its integral over `t > 0` in closed form, `Re G, Re Z > 0`.
-/

namespace Verif.Lemmas
open MeasureTheory Set Filter Topology Verif.Halfspace Verif.Kernel

/-- Analytic continuation of an integral in the parameter of an exponential. -/
theorem exp_cont {φ : ℝ → ℝ} (hφ : ContinuousOn φ (Ioi 0)) (hp : ∀ t : ℝ, 0 < t → 0 < φ t)
    {w : ℝ → ℂ} (hw : AEStronglyMeasurable w (volume.restrict (Ioi 0)))
    (hi : ∀ δ : ℝ, 0 < δ → IntegrableOn (fun t : ℝ => Real.exp (-(δ * φ t)) * ‖w t‖) (Ioi 0))
    {L : ℂ → ℂ} (hL : DifferentiableOn ℂ L {s : ℂ | 0 < s.re})
    (hr : ∀ x : ℝ, 0 < x → ∫ t in Ioi (0 : ℝ), Complex.exp (-(x * φ t)) * w t = L x) {s : ℂ}
    (h : 0 < s.re) : ∫ t in Ioi (0 : ℝ), Complex.exp (-(s * φ t)) * w t = L s := by
  have hφm : AEStronglyMeasurable φ (volume.restrict (Ioi 0)) :=
    hφ.aestronglyMeasurable measurableSet_Ioi
  have hφc : AEStronglyMeasurable (fun t => (φ t : ℂ)) (volume.restrict (Ioi 0)) :=
    Complex.continuous_ofReal.comp_aestronglyMeasurable hφm
  have hm : ∀ s : ℂ, AEStronglyMeasurable (fun t : ℝ => Complex.exp (-(s * φ t)) * w t)
      (volume.restrict (Ioi 0)) := fun s =>
    (Complex.continuous_exp.comp_aestronglyMeasurable (hφc.const_mul s).neg).mul hw
  have hn : ∀ (s : ℂ) (t : ℝ), ‖Complex.exp (-(s * φ t)) * w t‖ = Real.exp (-(s.re * φ t)) * ‖w t‖ := by
    intro s t
    rw [norm_mul, Complex.norm_exp]
    simp
  have hint : ∀ s : ℂ, 0 < s.re → IntegrableOn (fun t : ℝ => Complex.exp (-(s * φ t)) * w t) (Ioi 0) := by
    intro s hs
    refine (hi s.re hs).mono' (hm s) (Eventually.of_forall fun t => ?_)
    rw [hn]
  have hdiff : DifferentiableOn ℂ (fun s : ℂ => ∫ t in Ioi (0 : ℝ), Complex.exp (-(s * φ t)) * w t)
      {s : ℂ | 0 < s.re} := by
    intro s hs
    have hs : 0 < s.re := hs
    have hd : 0 < s.re / 4 := by linarith
    have hball : Metric.ball s (s.re / 2) ∈ 𝓝 s := Metric.ball_mem_nhds s (by linarith)
    have := hasDerivAt_integral_of_dominated_loc_of_deriv_le (μ := volume.restrict (Ioi (0 : ℝ)))
      (F := fun (s : ℂ) (t : ℝ) => Complex.exp (-(s * φ t)) * w t)
      (F' := fun (s : ℂ) (t : ℝ) => (Complex.exp (-(s * φ t)) * -(φ t : ℂ)) * w t) (x₀ := s)
      (s := Metric.ball s (s.re / 2))
      (bound := fun t => 1 / (s.re / 4) * (Real.exp (-(s.re / 4 * φ t)) * ‖w t‖)) hball
      (Eventually.of_forall fun z => hm z) (hint s hs) ?_ ?_ ?_ ?_
    · exact this.2.differentiableAt.differentiableWithinAt
    · exact ((Complex.continuous_exp.comp_aestronglyMeasurable (hφc.const_mul s).neg).mul hφc.neg).mul hw
    · refine (ae_restrict_mem measurableSet_Ioi).mono fun t ht z hz => ?_
      have hft := hp t ht
      have hz1 : |(z - s).re| < s.re / 2 :=
        (Complex.abs_re_le_norm _).trans_lt (by simpa [dist_eq_norm] using hz)
      have hz2 : s.re / 2 ≤ z.re := by
        rw [Complex.sub_re] at hz1
        have := (abs_lt.1 hz1).1
        linarith
      rw [norm_mul, norm_mul, Complex.norm_exp, norm_neg, Complex.norm_real, Real.norm_of_nonneg hft.le]
      have e1 : (-(z * φ t) : ℂ).re = -(z.re * φ t) := by simp
      rw [e1, ← mul_assoc]
      refine mul_le_mul_of_nonneg_right ?_ (norm_nonneg _)
      have e2 : Real.exp (-(z.re * φ t)) ≤ Real.exp (-(s.re / 4 * φ t)) * Real.exp (-(s.re / 4 * φ t)) := by
        rw [← Real.exp_add]
        refine Real.exp_le_exp.2 ?_
        nlinarith
      have e3 : φ t * Real.exp (-(s.re / 4 * φ t)) ≤ 1 / (s.re / 4) := by
        rw [le_div_iff₀ hd]
        have := Real.add_one_le_exp (s.re / 4 * φ t)
        rw [Real.exp_neg, ← div_eq_mul_inv, div_mul_eq_mul_div, div_le_one (Real.exp_pos _)]
        linarith
      have e4 := (Real.exp_pos (-(s.re / 4 * φ t))).le
      calc _ ≤ Real.exp (-(s.re / 4 * φ t)) * Real.exp (-(s.re / 4 * φ t)) * φ t :=
            mul_le_mul_of_nonneg_right e2 hft.le
        _ = (φ t * Real.exp (-(s.re / 4 * φ t))) * Real.exp (-(s.re / 4 * φ t)) := by ring
        _ ≤ _ := mul_le_mul_of_nonneg_right e3 e4
    · exact (hi _ hd).const_mul _
    · refine Eventually.of_forall fun t z _ => ?_
      have h1 : HasDerivAt (fun z : ℂ => -(z * (φ t : ℂ))) (-(φ t : ℂ)) z := by
        exact (((hasDerivAt_id z).mul_const (φ t : ℂ)).neg).congr_deriv (by simp)
      exact h1.cexp.mul_const _
  have hopen : IsOpen {z : ℂ | 0 < z.re} := isOpen_lt continuous_const Complex.continuous_re
  refine ((hdiff.analyticOnNhd hopen).eqOn_of_preconnected_of_frequently_eq
      (hL.analyticOnNhd hopen) ?_ (z₀ := 1) (by simp) ?_) h
  · exact (convex_halfSpace_re_gt 0).isPreconnected
  · have hseq : Tendsto (fun n : ℕ => ((1 + 1 / ((n : ℝ) + 1) : ℝ) : ℂ)) atTop (𝓝[≠] 1) := by
      refine tendsto_nhdsWithin_iff.2 ⟨?_, Eventually.of_forall fun n => ?_⟩
      · have h1 := (tendsto_one_div_add_atTop_nhds_zero_nat (𝕜 := ℝ)).const_add 1
        have := (Complex.continuous_ofReal.tendsto _).comp h1
        rw [add_zero, Complex.ofReal_one] at this
        exact this
      · simp only [mem_compl_iff, mem_singleton_iff]
        have : (0 : ℝ) < 1 / ((n : ℝ) + 1) := by positivity
        intro hh
        have : (1 + 1 / ((n : ℝ) + 1) : ℝ) = 1 := by exact_mod_cast hh
        linarith
    refine hseq.frequently (Eventually.of_forall fun n => ?_).frequently
    exact hr _ (by positivity)

/-- `exp(-Z/t - G t)/(√t tⁿ)` -/
noncomputable def kz (n : ℕ) (G Z : ℂ) (t : ℝ) : ℂ :=
  Complex.exp (-Z / t - G * t) / ((Real.sqrt t : ℝ) * (t : ℂ) ^ n)

theorem kz_norm (n : ℕ) (G Z : ℂ) {t : ℝ} (ht : 0 ≤ t) : ‖kz n G Z t‖ = dW n Z.re G.re t := by
  unfold kz dW
  rw [norm_div, Complex.norm_exp, norm_mul, norm_pow, Complex.norm_real, Complex.norm_real,
    Real.norm_of_nonneg (Real.sqrt_nonneg t), Real.norm_of_nonneg ht]
  congr 2
  have : -Z / (t : ℂ) = ((t⁻¹ : ℝ) : ℂ) * -Z := by push_cast; ring
  rw [this, Complex.sub_re, Complex.re_ofReal_mul, mul_comm G, Complex.re_ofReal_mul, Complex.neg_re]
  ring

theorem dW_int (n : ℕ) {τ s : ℝ} (hτ : 0 < τ) (hs : 0 < s) : IntegrableOn (dW n τ s) (Ioi 0) := by
  have hc : 0 < Real.sqrt s := Real.sqrt_pos.2 hs
  have e : Real.sqrt s ^ 2 = s := Real.sq_sqrt hs.le
  have p0 := prim_zero hτ hc
  have p1 := prim_one hτ hc
  rw [e] at p0 p1
  have : ∀ m : ℕ, ∃ L0 L1, Prim m τ s L0 ∧ Prim (m + 1) τ s L1 := by
    intro m
    induction m with
    | zero => exact ⟨_, _, p0, p1⟩
    | succ k ih =>
      obtain ⟨_, _, h0, h1⟩ := ih
      exact ⟨_, _, h1, h1.next hτ hs.le (Or.inr h0)⟩
  obtain ⟨_, _, h, _⟩ := this n
  exact h.int.1

theorem kz_cont (n : ℕ) (G Z : ℂ) : ContinuousOn (kz n G Z) (Ioi 0) := by
  intro t ht
  have ht : 0 < t := ht
  have h1 : (t : ℂ) ≠ 0 := by exact_mod_cast ht.ne'
  have h2 : ((Real.sqrt t : ℝ) : ℂ) ≠ 0 := by exact_mod_cast (Real.sqrt_pos.2 ht).ne'
  have hc : ContinuousAt (fun t : ℝ => (t : ℂ)) t := Complex.continuous_ofReal.continuousAt
  have hs : ContinuousAt (fun t : ℝ => ((Real.sqrt t : ℝ) : ℂ)) t :=
    (Complex.continuous_ofReal.comp Real.continuous_sqrt).continuousAt
  unfold kz
  refine (ContinuousAt.div ?_ (hs.mul (hc.pow n)) (mul_ne_zero h2 (pow_ne_zero n h1))).continuousWithinAt
  exact ((continuousAt_const.div hc h1).sub (continuousAt_const.mul hc)).cexp

theorem kz_meas (n : ℕ) (G Z : ℂ) : AEStronglyMeasurable (kz n G Z) (volume.restrict (Ioi 0)) :=
  (kz_cont n G Z).aestronglyMeasurable measurableSet_Ioi

theorem kz_int (n : ℕ) {G Z : ℂ} (hG : 0 < G.re) (hZ : 0 < Z.re) :
    IntegrableOn (kz n G Z) (Ioi 0) := by
  refine (dW_int n hZ hG).mono' (kz_meas n G Z) ?_
  refine (ae_restrict_mem measurableSet_Ioi).mono fun t ht => ?_
  rw [kz_norm n G Z (le_of_lt ht)]

theorem kz_zero_at (n : ℕ) (G Z : ℂ) : kz n G Z 0 = 0 := by simp [kz]

theorem kz_hasDeriv (n : ℕ) (G Z : ℂ) {t : ℝ} (ht : 0 < t) :
    HasDerivAt (kz n G Z) (Z * kz (n + 2) G Z t - (n + 1 / 2) * kz (n + 1) G Z t - G * kz n G Z t) t := by
  have h1 : (t : ℂ) ≠ 0 := by exact_mod_cast ht.ne'
  have hr := Real.sqrt_pos.2 ht
  have h2 : ((Real.sqrt t : ℝ) : ℂ) ≠ 0 := by exact_mod_cast hr.ne'
  have hs2 : ((Real.sqrt t : ℝ) : ℂ) ^ 2 = t := by exact_mod_cast Real.sq_sqrt ht.le
  have hc : HasDerivAt (fun t : ℝ => (t : ℂ)) 1 t := (hasDerivAt_id t).ofReal_comp
  have hs : HasDerivAt (fun t : ℝ => ((Real.sqrt t : ℝ) : ℂ)) ((1 / (2 * Real.sqrt t) : ℝ) : ℂ) t :=
    (sqrt_hasDeriv ht).ofReal_comp
  have e1 : HasDerivAt (fun t : ℝ => Complex.exp (-Z / (t : ℂ) - G * t))
      (Complex.exp (-Z / (t : ℂ) - G * t) * (Z / (t : ℂ) ^ 2 - G)) t :=
    ((((hasDerivAt_const t (-Z)).div hc h1).sub (hc.const_mul G)).cexp).congr_deriv (by
      simp only [Pi.sub_apply, Pi.div_apply]; ring)
  have e2 := e1.div (hs.mul (hc.pow n)) (mul_ne_zero h2 (pow_ne_zero n h1))
  refine e2.congr_deriv ?_
  unfold kz
  generalize Complex.exp (-Z / (t : ℂ) - G * t) = E
  have h3 : (t : ℂ) ^ n ≠ 0 := pow_ne_zero n h1
  have hp : (n : ℂ) * (t : ℂ) ^ (n - 1) = n * (t : ℂ) ^ n / t := by
    rcases n with _ | k
    · simp
    · rw [Nat.add_sub_cancel, pow_succ]; field_simp
  simp only [Pi.mul_apply, Pi.pow_apply, mul_one, hp]
  push_cast
  rw [pow_add (t : ℂ) n 2, pow_add (t : ℂ) n 1, pow_one]
  generalize (t : ℂ) ^ n = T at *
  generalize ((Real.sqrt t : ℝ) : ℂ) = q at *
  rw [← hs2] at h1 ⊢
  field_simp
  ring

theorem kz_next (n : ℕ) {G Z : ℂ} (hG : 0 < G.re) (hZ : 0 < Z.re) :
    Z * (∫ t in Ioi (0 : ℝ), kz (n + 2) G Z t) =
      (n + 1 / 2) * (∫ t in Ioi (0 : ℝ), kz (n + 1) G Z t) + G * ∫ t in Ioi (0 : ℝ), kz n G Z t := by
  have i0 := kz_int n hG hZ
  have i1 := kz_int (n + 1) hG hZ
  have i2 := kz_int (n + 2) hG hZ
  have hz : Tendsto (kz n G Z) (𝓝[>] 0) (𝓝 0) := by
    rw [tendsto_zero_iff_norm_tendsto_zero]
    refine (dW_zero n hZ (s := G.re)).congr' ?_
    filter_upwards [self_mem_nhdsWithin] with t ht
    rw [kz_norm n G Z (le_of_lt ht)]
  have ht : Tendsto (kz n G Z) atTop (𝓝 0) := by
    rw [tendsto_zero_iff_norm_tendsto_zero]
    refine (dW_top n hZ hG.le).congr' ?_
    filter_upwards [eventually_gt_atTop 0] with t ht
    rw [kz_norm n G Z (le_of_lt ht)]
  have hc : ContinuousWithinAt (kz n G Z) (Ici 0) 0 := by
    rw [← continuousWithinAt_Ioi_iff_Ici, ContinuousWithinAt, kz_zero_at]
    exact hz
  have hi : IntegrableOn (fun t => Z * kz (n + 2) G Z t - (n + 1 / 2) * kz (n + 1) G Z t - G * kz n G Z t)
      (Ioi 0) := ((i2.const_mul _).sub (i1.const_mul _)).sub (i0.const_mul _)
  have := integral_Ioi_of_hasDerivAt_of_tendsto hc (fun t ht => kz_hasDeriv n G Z ht) hi ht
  have i21 : IntegrableOn (fun t => Z * kz (n + 2) G Z t - (n + 1 / 2) * kz (n + 1) G Z t) (Ioi 0) :=
    (i2.const_mul _).sub (i1.const_mul _)
  rw [integral_sub i21 (i0.const_mul _),
    integral_sub (i2.const_mul _) (i1.const_mul _), integral_const_mul, integral_const_mul,
    integral_const_mul, kz_zero_at] at this
  linear_combination this

theorem dW_real (n : ℕ) (x y t : ℝ) : kz n x y t = (dW n y x t : ℝ) := by
  unfold kz dW; push_cast; rfl

theorem kz_split_G (n : ℕ) (G Z : ℂ) (t : ℝ) :
    kz n G Z t = Complex.exp (-(G * (t : ℝ))) * kz n 0 Z t := by
  unfold kz
  rw [zero_mul, sub_zero, sub_eq_add_neg, Complex.exp_add]; ring

theorem kz_split_Z (n : ℕ) (G Z : ℂ) (t : ℝ) :
    kz n G Z t = Complex.exp (-(Z * ((1 / t : ℝ) : ℂ))) * kz n G 0 t := by
  unfold kz
  rw [neg_zero, zero_div, zero_sub, sub_eq_add_neg, Complex.exp_add]; push_cast; ring_nf

/-- From positive reals to the right half plane, in both parameters. -/
theorem kz_ext (n : ℕ) {L : ℂ → ℂ → ℂ}
    (h1 : ∀ Z : ℂ, 0 < Z.re → DifferentiableOn ℂ (fun G => L G Z) {G : ℂ | 0 < G.re})
    (h2 : ∀ G : ℂ, 0 < G.re → DifferentiableOn ℂ (fun Z => L G Z) {Z : ℂ | 0 < Z.re})
    (hr : ∀ x y : ℝ, 0 < x → 0 < y → ((∫ t in Ioi (0 : ℝ), dW n y x t : ℝ) : ℂ) = L x y)
    {G Z : ℂ} (hG : 0 < G.re) (hZ : 0 < Z.re) : ∫ t in Ioi (0 : ℝ), kz n G Z t = L G Z := by
  have step1 : ∀ (y : ℝ), 0 < y → ∀ G : ℂ, 0 < G.re → ∫ t in Ioi (0 : ℝ), kz n G y t = L G y := by
    intro y hy G hG
    have hy' : 0 < (y : ℂ).re := by simpa using hy
    have := exp_cont (φ := fun t => t) (w := kz n 0 (y : ℂ)) (L := fun G => L G y) continuousOn_id
      (fun t ht => ht) (kz_meas n 0 _) ?_ (h1 _ hy') ?_ hG
    · rw [← this]
      exact integral_congr_ae (Eventually.of_forall fun t => kz_split_G n G y t)
    · intro δ hδ
      refine (dW_int n hy hδ).congr_fun (fun t ht => ?_) measurableSet_Ioi
      have e := kz_norm n (δ : ℂ) (y : ℂ) (le_of_lt ht)
      rw [kz_split_G, norm_mul, Complex.norm_exp] at e
      simp only [Complex.ofReal_re] at e
      rw [← e]; simp
    · intro x hx
      rw [← hr x y hx hy, ← integral_complex_ofReal]
      refine integral_congr_ae (Eventually.of_forall fun t => ?_)
      simp only
      rw [← kz_split_G, dW_real]
  have := exp_cont (φ := fun t => 1 / t) (w := kz n G 0) (L := fun Z => L G Z)
    (continuousOn_const.div continuousOn_id fun t ht => (ne_of_gt ht))
    (fun t ht => one_div_pos.2 ht) (kz_meas n G 0) ?_ (h2 _ hG) ?_ hZ
  · rw [← this]
    exact integral_congr_ae (Eventually.of_forall fun t => kz_split_Z n G Z t)
  · intro δ hδ
    refine (dW_int n hδ hG).congr_fun (fun t ht => ?_) measurableSet_Ioi
    have e := kz_norm n G (δ : ℂ) (le_of_lt ht)
    rw [kz_split_Z, norm_mul, Complex.norm_exp] at e
    simp only [Complex.ofReal_re] at e
    rw [← e]; simp
  · intro x hx
    have e := step1 x hx G hG
    rw [← e]
    exact integral_congr_ae (Eventually.of_forall fun t => (kz_split_Z n G x t).symm)

theorem csqrt_ne {z : ℂ} (h : 0 < z.re) : csqrt z ≠ 0 := by
  intro e
  have := csqrt_sq' z
  rw [e] at this
  rw [← this] at h
  simp at h

theorem csqrt_diff_pos {z : ℂ} (h : 0 < z.re) : DifferentiableAt ℂ csqrt z :=
  csqrt_diff h.le (fun e => by rw [e] at h; simp at h)

/-- `√π exp(-2 √G √Z)` -/
noncomputable def kE (G Z : ℂ) : ℂ := (Real.sqrt Real.pi : ℝ) * Complex.exp (-(2 * csqrt Z * csqrt G))

theorem kz_zero {G Z : ℂ} (hG : 0 < G.re) (hZ : 0 < Z.re) :
    ∫ t in Ioi (0 : ℝ), kz 0 G Z t = kE G Z / csqrt G := by
  refine kz_ext 0 (L := fun G Z => kE G Z / csqrt G) ?_ ?_ ?_ hG hZ
  · intro Z hZ G hG
    have hq := csqrt_diff_pos hG
    refine DifferentiableAt.differentiableWithinAt ?_
    unfold kE
    exact ((((hq.const_mul _).neg).cexp).const_mul _).div hq (csqrt_ne hG)
  · intro G hG Z hZ
    have hq := csqrt_diff_pos hZ
    refine DifferentiableAt.differentiableWithinAt ?_
    unfold kE
    exact (((((hq.const_mul _).mul_const _).neg).cexp).const_mul _).div_const _
  · intro x y hx hy
    have p0 := prim_zero hy (Real.sqrt_pos.2 hx)
    rw [Real.sq_sqrt hx.le] at p0
    rw [p0.int.2]
    simp only [kE]
    rw [csqrt_ofReal hx.le, csqrt_ofReal hy.le]
    push_cast; ring

theorem kz_one {G Z : ℂ} (hG : 0 < G.re) (hZ : 0 < Z.re) :
    ∫ t in Ioi (0 : ℝ), kz 1 G Z t = kE G Z / csqrt Z := by
  refine kz_ext 1 (L := fun G Z => kE G Z / csqrt Z) ?_ ?_ ?_ hG hZ
  · intro Z hZ G hG
    have hq := csqrt_diff_pos hG
    refine DifferentiableAt.differentiableWithinAt ?_
    unfold kE
    exact ((((hq.const_mul _).neg).cexp).const_mul _).div_const _
  · intro G hG Z hZ
    have hq := csqrt_diff_pos hZ
    refine DifferentiableAt.differentiableWithinAt ?_
    unfold kE
    exact (((((hq.const_mul _).mul_const _).neg).cexp).const_mul _).div hq (csqrt_ne hZ)
  · intro x y hx hy
    have p0 := prim_one hy (Real.sqrt_pos.2 hx)
    rw [Real.sq_sqrt hx.le] at p0
    rw [p0.int.2]
    simp only [kE]
    rw [csqrt_ofReal hx.le, csqrt_ofReal hy.le]
    push_cast; ring

/-- With roots `γ` of `G` and `R` of `Z` in the right half plane. -/
theorem kz_roots {γ R : ℂ} (h1 : 0 < γ.re) (h2 : 0 < R.re) (hG : 0 < (γ ^ 2).re) (hZ : 0 < (R ^ 2).re) :
    let E := (Real.sqrt Real.pi : ℂ) * Complex.exp (-(2 * R * γ))
    ∫ t in Ioi (0 : ℝ), kz 0 (γ ^ 2) (R ^ 2) t = E / γ ∧
    ∫ t in Ioi (0 : ℝ), kz 1 (γ ^ 2) (R ^ 2) t = E / R ∧
    ∫ t in Ioi (0 : ℝ), kz 2 (γ ^ 2) (R ^ 2) t = E * (1 / (2 * R ^ 3) + γ / R ^ 2) ∧
    ∫ t in Ioi (0 : ℝ), kz 3 (γ ^ 2) (R ^ 2) t =
      E * (3 / (4 * R ^ 5) + 3 * γ / (2 * R ^ 4) + γ ^ 2 / R ^ 3) := by
  have hsq : ∀ w : ℂ, 0 < w.re → csqrt (w ^ 2) = w := by
    intro w hw
    rw [csqrt, ← Complex.cpow_nat_mul' (n := 2)]
    · norm_num
    · have := (Complex.abs_arg_lt_pi_div_two_iff (z := w)).2 (Or.inl hw)
      rw [abs_lt] at this
      push_cast
      linarith [this.1]
    · have := (Complex.abs_arg_lt_pi_div_two_iff (z := w)).2 (Or.inl hw)
      rw [abs_lt] at this
      push_cast
      linarith [this.2]
  have hg0 : γ ≠ 0 := fun e => by rw [e] at h1; simp at h1
  have hR0 : R ≠ 0 := fun e => by rw [e] at h2; simp at h2
  intro E
  have k0 := kz_zero hG hZ
  have k1 := kz_one hG hZ
  have k2 := kz_next 0 hG hZ
  have k3 := kz_next 1 hG hZ
  have hE : kE (γ ^ 2) (R ^ 2) = E := by rw [kE, hsq γ h1, hsq R h2]
  rw [hE, hsq γ h1] at k0
  rw [hE, hsq R h2] at k1
  have k2' : ∫ t in Ioi (0 : ℝ), kz 2 (γ ^ 2) (R ^ 2) t = E * (1 / (2 * R ^ 3) + γ / R ^ 2) := by
    rw [zero_add, zero_add, k1, k0] at k2
    refine mul_left_cancel₀ (pow_ne_zero 2 hR0) (k2.trans ?_)
    push_cast
    field_simp
    try ring
  refine ⟨k0, k1, k2', ?_⟩
  rw [show 1 + 2 = 3 from rfl, show 1 + 1 = 2 from rfl, k2', k1] at k3
  refine mul_left_cancel₀ (pow_ne_zero 2 hR0) (k3.trans ?_)
  push_cast
  field_simp
  try ring

end Verif.Lemmas
