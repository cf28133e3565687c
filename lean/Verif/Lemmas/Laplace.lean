import Verif.Lemmas.Diffusion
import Mathlib.Analysis.Analytic.Uniqueness
import Mathlib.Analysis.SpecialFunctions.Pow.Deriv

/-!
# Laplace transforms of the diffusion functions for complex `s`, `Re s ≥ 0`
-/

namespace Verif.Lemmas
open MeasureTheory Set Filter Topology Verif.Halfspace Verif.Kernel ProbabilityTheory

theorem dW_split (n : ℕ) (τ s t : ℝ) : dW n τ s t = Real.exp (-s * t) * dW n τ 0 t := by
  unfold dW
  rw [zero_mul, sub_zero, sub_eq_add_neg, Real.exp_add, neg_mul]; ring

theorem slit_of_re {s : ℂ} (h : 0 ≤ s.re) (h0 : s ≠ 0) : s ∈ Complex.slitPlane := by
  rw [Complex.mem_slitPlane_iff]
  rcases h.lt_or_eq with h | h
  · exact Or.inl h
  · right; intro hi; exact h0 (Complex.ext h.symm hi)

theorem csqrt_ofReal {x : ℝ} (hx : 0 ≤ x) : csqrt (x : ℂ) = (Real.sqrt x : ℝ) := by
  rw [csqrt, Real.sqrt_eq_rpow, Complex.ofReal_cpow hx]; norm_num

theorem csqrt_sq' (z : ℂ) : csqrt z ^ 2 = z := by
  rw [csqrt, ← Complex.cpow_nat_mul]; norm_num

theorem csqrt_ofReal_mul {r : ℝ} (hr : 0 < r) (z : ℂ) :
    csqrt (r * z) = (Real.sqrt r : ℝ) * csqrt z := by
  rcases eq_or_ne z 0 with rfl | hz
  · simp [csqrt]
  · rw [← csqrt_ofReal hr.le]
    have hr' : (r : ℂ) ≠ 0 := by exact_mod_cast hr.ne'
    rw [csqrt, csqrt, csqrt, Complex.cpow_def_of_ne_zero (mul_ne_zero hr' hz),
      Complex.cpow_def_of_ne_zero hr', Complex.cpow_def_of_ne_zero hz, ← Complex.exp_add,
      Complex.log_ofReal_mul hr hz, Complex.ofReal_log hr.le]
    congr 1; ring

/-- Analytic continuation of a Laplace transform of a non-negative density. -/
theorem laplace_ext {w : ℝ → ℝ} (hw : IntegrableOn w (Ioi 0)) (hp : ∀ t : ℝ, 0 < t → 0 ≤ w t)
    {L : ℂ → ℂ} (hL : DifferentiableOn ℂ L {s : ℂ | 0 < s.re}) (hc : ∀ s : ℂ, 0 ≤ s.re → s ≠ 0 →
      ContinuousAt L s)
    (hr : ∀ s : ℝ, 0 < s → ∫ t in Ioi (0 : ℝ), Real.exp (-s * t) * w t = L s) {s : ℂ}
    (h : 0 ≤ s.re) (h0 : s ≠ 0) :
    ∫ t in Ioi (0 : ℝ), Complex.exp (-s * t) * (w t : ℂ) = L s := by
  set F : ℂ → ℂ := fun s => ∫ t in Ioi (0 : ℝ), Complex.exp (-s * t) * (w t : ℂ)
  have bound : ∀ s : ℂ, 0 ≤ s.re → ∀ t : ℝ, 0 < t → ‖Complex.exp (-s * t) * (w t : ℂ)‖ ≤ w t := by
    intro s hs t ht
    rw [norm_mul, Complex.norm_exp, Complex.norm_real, Real.norm_of_nonneg (hp t ht)]
    have : (-s * t : ℂ).re = -(s.re * t) := by simp
    rw [this]
    have h1 : Real.exp (-(s.re * t)) ≤ 1 := by
      rw [Real.exp_le_one_iff]; have := mul_nonneg hs ht.le; linarith
    nlinarith [hp t ht]
  have hmeas : ∀ s : ℂ, AEStronglyMeasurable (fun t : ℝ => Complex.exp (-s * t) * (w t : ℂ))
      (volume.restrict (Ioi 0)) := by
    intro s
    refine AEStronglyMeasurable.mul ?_ (Complex.continuous_ofReal.comp_aestronglyMeasurable hw.1)
    exact (by fun_prop : Continuous fun t : ℝ => Complex.exp (-s * t)).aestronglyMeasurable
  -- continuity on the closed half plane
  have hcont : ∀ s : ℂ, 0 ≤ s.re → ContinuousWithinAt F {z : ℂ | 0 ≤ z.re} s := by
    intro s hs
    refine continuousWithinAt_of_dominated (bound := w) ?_ ?_ hw ?_
    · exact Eventually.of_forall fun z => hmeas z
    · filter_upwards [self_mem_nhdsWithin] with z hz
      refine (ae_restrict_mem measurableSet_Ioi).mono fun t ht => bound z hz t ht
    · refine Eventually.of_forall fun t => ?_
      exact (by fun_prop : Continuous fun z : ℂ => Complex.exp (-z * t) * (w t : ℂ)).continuousWithinAt
  -- analyticity inside
  have hdiff : DifferentiableOn ℂ F {z : ℂ | 0 < z.re} := by
    set μ := (volume.restrict (Ioi (0 : ℝ))).withDensity fun t => ENNReal.ofReal (w t)
    have hae : AEMeasurable (fun t => ENNReal.ofReal (w t)) (volume.restrict (Ioi (0 : ℝ))) :=
      hw.1.aemeasurable.ennreal_ofReal
    have hset : Ici (0 : ℝ) ⊆ integrableExpSet (fun t : ℝ => -t) μ := by
      intro x hx
      show Integrable _ μ
      rw [integrable_withDensity_iff_integrable_smul₀' hae (by simp)]
      refine hw.mono' ?_ ?_
      · exact hae.ennreal_toReal.aestronglyMeasurable.mul
          (by fun_prop : Continuous fun t : ℝ => Real.exp (x * -t)).aestronglyMeasurable
      · refine (ae_restrict_mem measurableSet_Ioi).mono fun t ht => ?_
        have ht : 0 < t := ht
        have hx : 0 ≤ x := hx
        rw [ENNReal.toReal_ofReal (hp t ht), smul_eq_mul, norm_mul, Real.norm_of_nonneg (hp t ht),
          Real.norm_of_nonneg (Real.exp_pos _).le]
        have h1 : Real.exp (x * -t) ≤ 1 := by
          rw [Real.exp_le_one_iff]; have := mul_nonneg hx ht.le; linarith
        nlinarith [hp t ht]
    have hint : {z : ℂ | 0 < z.re} ⊆ {z : ℂ | z.re ∈ interior (integrableExpSet (fun t : ℝ => -t) μ)} := by
      intro z hz
      refine interior_mono hset ?_
      rw [interior_Ici]; exact hz
    have := (differentiableOn_complexMGF (X := fun t : ℝ => -t) (μ := μ)).mono hint
    refine this.congr fun z hz => ?_
    simp only [F, complexMGF]
    rw [integral_withDensity_eq_integral_toReal_smul₀ hae (by simp)]
    refine setIntegral_congr_fun measurableSet_Ioi fun t ht => ?_
    have ht : 0 < t := ht
    show _ = (ENNReal.ofReal (w t)).toReal • _
    rw [ENNReal.toReal_ofReal (hp t ht), Complex.real_smul, mul_comm]
    congr 2
    push_cast; ring
  have hopen : IsOpen {z : ℂ | 0 < z.re} := isOpen_lt continuous_const Complex.continuous_re
  have heq : EqOn F L {z : ℂ | 0 < z.re} := by
    refine (hdiff.analyticOnNhd hopen).eqOn_of_preconnected_of_frequently_eq
      (hL.analyticOnNhd hopen) ?_ (z₀ := 1) (by simp) ?_
    · exact (convex_halfSpace_re_gt 0).isPreconnected
    · have hseq : Tendsto (fun n : ℕ => ((1 + 1 / ((n : ℝ) + 1) : ℝ) : ℂ)) atTop (𝓝[≠] 1) := by
        refine tendsto_nhdsWithin_iff.2 ⟨?_, Eventually.of_forall fun n => ?_⟩
        · have h1 := (tendsto_one_div_add_atTop_nhds_zero_nat (𝕜 := ℝ)).const_add 1
          have := (Complex.continuous_ofReal.tendsto _).comp h1
          rw [add_zero, Complex.ofReal_one] at this
          exact this
        · simp only [mem_compl_iff, mem_singleton_iff]
          have : (0 : ℝ) < 1 / ((n : ℝ) + 1) := by positivity
          intro hh
          have : (1 + 1 / ((n : ℝ) + 1) : ℝ) = 1 := by exact_mod_cast hh
          linarith
      refine hseq.frequently (Eventually.of_forall fun n => ?_).frequently
      have hpos : (0 : ℝ) < 1 + 1 / ((n : ℝ) + 1) := by positivity
      generalize (1 + 1 / ((n : ℝ) + 1) : ℝ) = x at hpos
      rw [← hr x hpos]
      simp only [F]
      rw [← integral_complex_ofReal]
      refine integral_congr_ae (Eventually.of_forall fun t => ?_)
      simp only; push_cast; rfl
  -- limit from the right
  have hsq : Tendsto (fun n : ℕ => s + ((1 / ((n : ℝ) + 1) : ℝ) : ℂ)) atTop (𝓝 s) := by
    have := ((Complex.continuous_ofReal.tendsto _).comp
      (tendsto_one_div_add_atTop_nhds_zero_nat (𝕜 := ℝ))).const_add s
    simpa using this
  have hmem : ∀ n : ℕ, 0 < (s + ((1 / ((n : ℝ) + 1) : ℝ) : ℂ)).re := fun n => by
    have : (0 : ℝ) < 1 / ((n : ℝ) + 1) := by positivity
    rw [Complex.add_re, Complex.ofReal_re]; linarith
  have t1 : Tendsto (fun n : ℕ => F (s + ((1 / ((n : ℝ) + 1) : ℝ) : ℂ))) atTop (𝓝 (F s)) :=
    (hcont s h).tendsto.comp (tendsto_nhdsWithin_iff.2
      ⟨hsq, Eventually.of_forall fun n => (hmem n).le⟩)
  have t2 : Tendsto (fun n : ℕ => L (s + ((1 / ((n : ℝ) + 1) : ℝ) : ℂ))) atTop (𝓝 (L s)) :=
    (hc s h h0).tendsto.comp hsq
  exact tendsto_nhds_unique t1 (t2.congr fun n => (heq (hmem n)).symm)

/-- `v` is the Laplace transform of `w` at `s`. -/
def HasLap (w : ℝ → ℝ) (s v : ℂ) : Prop :=
  IntegrableOn (fun t : ℝ => Complex.exp (-s * t) * (w t : ℂ)) (Ioi 0) ∧
    ∫ t in Ioi (0 : ℝ), Complex.exp (-s * t) * (w t : ℂ) = v

theorem HasLap.add {w w' : ℝ → ℝ} {s v v' : ℂ} (h : HasLap w s v) (h' : HasLap w' s v') :
    HasLap (fun t => w t + w' t) s (v + v') := by
  have e : (fun t : ℝ => Complex.exp (-s * t) * ((w t + w' t : ℝ) : ℂ)) =
      fun t : ℝ => Complex.exp (-s * t) * (w t : ℂ) + Complex.exp (-s * t) * (w' t : ℂ) := by
    funext t; push_cast; ring
  unfold HasLap
  rw [e]
  exact ⟨h.1.add h'.1, by rw [integral_add h.1 h'.1, h.2, h'.2]⟩

theorem HasLap.smul {w : ℝ → ℝ} {s v : ℂ} (c : ℝ) (h : HasLap w s v) :
    HasLap (fun t => c * w t) s (c * v) := by
  have e : (fun t : ℝ => Complex.exp (-s * t) * ((c * w t : ℝ) : ℂ)) =
      fun t : ℝ => (c : ℂ) * (Complex.exp (-s * t) * (w t : ℂ)) := by
    funext t; push_cast; ring
  unfold HasLap
  rw [e]
  exact ⟨h.1.const_mul _, by rw [integral_const_mul, h.2]⟩

theorem HasLap.congr {w w' : ℝ → ℝ} {s v v' : ℂ} (h : HasLap w s v)
    (e : ∀ t : ℝ, 0 < t → w' t = w t) (ev : v' = v) : HasLap w' s v' := by
  subst ev
  have he : EqOn (fun t : ℝ => Complex.exp (-s * t) * (w' t : ℂ))
      (fun t : ℝ => Complex.exp (-s * t) * (w t : ℂ)) (Ioi 0) := fun t ht => by
    simp only; rw [e t ht]
  exact ⟨h.1.congr_fun (fun t ht => (he ht).symm) measurableSet_Ioi, by
    rw [setIntegral_congr_fun measurableSet_Ioi he, h.2]⟩

theorem HasLap.zero {s : ℂ} : HasLap (fun _ => 0) s 0 := by
  constructor <;> simp [integrableOn_zero]

theorem hasLap_ext {w : ℝ → ℝ} (hw : IntegrableOn w (Ioi 0)) (hp : ∀ t : ℝ, 0 < t → 0 ≤ w t)
    {L : ℂ → ℂ} (hL : DifferentiableOn ℂ L {s : ℂ | 0 < s.re}) (hc : ∀ s : ℂ, 0 ≤ s.re → s ≠ 0 →
      ContinuousAt L s)
    (hr : ∀ s : ℝ, 0 < s → ∫ t in Ioi (0 : ℝ), Real.exp (-s * t) * w t = L s) {s : ℂ}
    (h : 0 ≤ s.re) (h0 : s ≠ 0) : HasLap w s (L s) := by
  refine ⟨?_, laplace_ext hw hp hL hc hr h h0⟩
  refine Integrable.mono' hw ?_ ?_
  · refine AEStronglyMeasurable.mul ?_ (Complex.continuous_ofReal.comp_aestronglyMeasurable hw.1)
    exact (by fun_prop : Continuous fun t : ℝ => Complex.exp (-s * t)).aestronglyMeasurable
  · refine (ae_restrict_mem measurableSet_Ioi).mono fun t ht => ?_
    have ht : 0 < t := ht
    rw [norm_mul, Complex.norm_exp, Complex.norm_real, Real.norm_of_nonneg (hp t ht)]
    have : (-s * t : ℂ).re = -(s.re * t) := by simp
    rw [this]
    have h1 : Real.exp (-(s.re * t)) ≤ 1 := by
      rw [Real.exp_le_one_iff]; have := mul_nonneg h ht.le; linarith
    nlinarith [hp t ht]

/-! The transforms of `dW 1`, `dW 2`, `dW 3`. -/

/-- `√π exp(-2 √τ √s)`. -/
noncomputable def lE (τ : ℝ) (s : ℂ) : ℂ :=
  (Real.sqrt Real.pi : ℝ) * Complex.exp (-(2 * (Real.sqrt τ : ℝ) * csqrt s))

noncomputable def lL (τ : ℝ) : ℕ → ℂ → ℂ
  | 0, s => lE τ s / (Real.sqrt τ : ℝ)
  | 1, s => (1 / 2 * (lE τ s / (Real.sqrt τ : ℝ)) + csqrt s * lE τ s) / τ
  | _, s => (3 / 2 * ((1 / 2 * (lE τ s / (Real.sqrt τ : ℝ)) + csqrt s * lE τ s) / τ) +
      s * (lE τ s / (Real.sqrt τ : ℝ))) / τ

theorem csqrt_diff {s : ℂ} (h : 0 ≤ s.re) (h0 : s ≠ 0) : DifferentiableAt ℂ csqrt s := by
  unfold csqrt
  exact (differentiableAt_id).cpow (differentiableAt_const _) (slit_of_re h h0)

theorem lL_diff (τ : ℝ) (n : ℕ) {s : ℂ} (h : 0 ≤ s.re) (h0 : s ≠ 0) :
    DifferentiableAt ℂ (lL τ n) s := by
  have hq := csqrt_diff h h0
  have hE : DifferentiableAt ℂ (lE τ) s := by
    unfold lE
    exact (((hq.const_mul _).neg).cexp).const_mul _
  have h1 : DifferentiableAt ℂ (fun s => lE τ s / (Real.sqrt τ : ℝ)) s := hE.div_const _
  have h2 : DifferentiableAt ℂ (fun s => (1 / 2 * (lE τ s / (Real.sqrt τ : ℝ)) + csqrt s * lE τ s) / τ)
      s := ((h1.const_mul _).add (hq.mul hE)).div_const _
  match n with
  | 0 => exact h1
  | 1 => exact h2
  | _ + 2 => exact ((h2.const_mul _).add (differentiableAt_id.mul h1)).div_const _

theorem lap_real {τ s : ℝ} (hτ : 0 < τ) (hs : 0 < s) (n : ℕ) (hn : n ≤ 2) :
    ((∫ t in Ioi (0 : ℝ), dW (n + 1) τ s t : ℝ) : ℂ) = lL τ n s := by
  have hc : 0 < Real.sqrt s := Real.sqrt_pos.2 hs
  have e : Real.sqrt s ^ 2 = s := Real.sq_sqrt hs.le
  have p0 := prim_zero hτ hc
  have p1 := prim_one hτ hc
  rw [e] at p0 p1
  have p2 := Prim.next hτ hs.le p1 (Or.inr p0)
  have p3 := Prim.next hτ hs.le p2 (Or.inr p1)
  have hE : lE τ s = ((Real.sqrt Real.pi * Real.exp (-(2 * Real.sqrt τ * Real.sqrt s)) : ℝ) : ℂ) := by
    rw [lE, csqrt_ofReal hs.le]; push_cast; rfl
  have hcs : csqrt (s : ℂ) = (Real.sqrt s : ℝ) := csqrt_ofReal hs.le
  have ha : 0 < Real.sqrt τ := Real.sqrt_pos.2 hτ
  have e0 : s * (Real.sqrt Real.pi / Real.sqrt s * Real.exp (-(2 * Real.sqrt τ * Real.sqrt s))) =
      Real.sqrt s * (Real.sqrt Real.pi * Real.exp (-(2 * Real.sqrt τ * Real.sqrt s))) := by
    have : s = Real.sqrt s * Real.sqrt s := by rw [← sq, e]
    generalize Real.exp (-(2 * Real.sqrt τ * Real.sqrt s)) = X
    generalize Real.sqrt s = c at this hc
    subst this
    field_simp
  rw [e0] at p2 p3
  interval_cases n
  · rw [p1.int.2, lL, hE]; push_cast; ring
  · rw [p2.int.2, lL, hE, hcs]; push_cast; ring
  · rw [p3.int.2, lL, hE, hcs]
    · push_cast; ring
    all_goals simp

theorem lap_dW {τ : ℝ} (hτ : 0 < τ) {s : ℂ} (h : 0 ≤ s.re) (h0 : s ≠ 0) (n : ℕ) (hn : n ≤ 2) :
    HasLap (dW (n + 1) τ 0) s (lL τ n s) := by
  have hint : ∀ m : ℕ, ∃ L0 L1, Prim (m + 1) τ 0 L0 ∧ Prim (m + 2) τ 0 L1 := by
    intro m
    induction m with
    | zero =>
      obtain ⟨L, hL⟩ := prim_one_dc hτ
      exact ⟨L, _, hL, Prim.next (L0 := 0) hτ le_rfl hL (Or.inl rfl)⟩
    | succ k ih =>
      obtain ⟨_, L1, _, h1⟩ := ih
      exact ⟨L1, _, h1, Prim.next (L0 := 0) hτ le_rfl h1 (Or.inl rfl)⟩
  obtain ⟨_, _, hP, _⟩ := hint n
  refine hasLap_ext hP.int.1 (fun t ht => dW_nonneg _ ht) ?_ ?_ ?_ h h0
  · intro z hz
    have hz : 0 < z.re := hz
    exact (lL_diff τ n hz.le (fun e => by rw [e] at hz; simp at hz)).differentiableWithinAt
  · intro z hz hz0
    exact (lL_diff τ n hz hz0).continuousAt
  · intro x hx
    rw [← lap_real hτ hx n hn]
    congr 1
    refine integral_congr_ae (Eventually.of_forall fun t => ?_)
    simp only
    rw [dW_split (n + 1) τ x t]

theorem csqrt_mul_pos {τ : ℝ} (hτ : 0 < τ) (s : ℂ) :
    csqrt (s * τ) = (Real.sqrt τ : ℝ) * csqrt s := by
  rw [mul_comm, csqrt_ofReal_mul hτ]

theorem fFreq_f0 {τ : ℝ} (hτ : 0 < τ) (s : ℂ) :
    (Real.sqrt Real.pi : ℂ) * (fFreq s τ).f0 = lE τ s := by
  rw [fFreq, lE, csqrt_mul_pos hτ]
  congr 2; ring

/-- The frequency-domain diffusion functions of `halfspace` are the Laplace transforms of its
impulse diffusion functions. -/
theorem fImp_lap {τ : ℝ} (hτ : 0 < τ) {s : ℂ} (h : 0 ≤ s.re) (h0 : s ≠ 0) :
    HasLap (fun t => (fImp t τ).f0) s (fFreq s τ).f0 ∧
    HasLap (fun t => (fImp t τ).f1) s (fFreq s τ).f1 ∧
    HasLap (fun t => (fImp t τ).f2) s (fFreq s τ).f2 := by
  have l1 := lap_dW hτ h h0 0 (by norm_num)
  have l2 := lap_dW hτ h h0 1 (by norm_num)
  have l3 := lap_dW hτ h h0 2 (by norm_num)
  have hpi : 0 < Real.sqrt Real.pi := Real.sqrt_pos.2 Real.pi_pos
  have ha : 0 < Real.sqrt τ := Real.sqrt_pos.2 hτ
  have hpi' : ((Real.sqrt Real.pi : ℝ) : ℂ) ≠ 0 := by exact_mod_cast hpi.ne'
  have ha' : ((Real.sqrt τ : ℝ) : ℂ) ≠ 0 := by exact_mod_cast ha.ne'
  have hτ' : (τ : ℂ) ≠ 0 := by exact_mod_cast hτ.ne'
  have ea : Real.sqrt τ ^ 2 = τ := Real.sq_sqrt hτ.le
  have hE := fFreq_f0 hτ s
  have hf1 : (fFreq s τ).f1 = csqrt s * (fFreq s τ).f0 := rfl
  have hf2 : (fFreq s τ).f2 = s * (fFreq s τ).f0 := rfl
  have i0 : ∀ t : ℝ, 0 < t → (fImp t τ).f0 = Real.sqrt τ / Real.sqrt Real.pi * dW 1 τ 0 t := by
    intro t ht
    have hr : 0 < Real.sqrt t := Real.sqrt_pos.2 ht
    have e3 : Real.sqrt (t ^ 3) = Real.sqrt t * t := by
      have : t ^ 3 = t * (t * t) := by ring
      rw [this, Real.sqrt_mul ht.le, Real.sqrt_mul_self ht.le]
    simp only [fImp, dW]
    rw [Real.sqrt_div hτ.le, Real.sqrt_mul Real.pi_pos.le, e3, zero_mul, sub_zero, pow_one]
    field_simp
  refine ⟨?_, ?_, ?_⟩
  · refine (l1.smul (Real.sqrt τ / Real.sqrt Real.pi)).congr i0 ?_
    rw [lL, ← hE]; push_cast; field_simp
  · refine ((l2.smul (τ / Real.sqrt Real.pi)).add (l1.smul (-(1 / 2) / Real.sqrt Real.pi))).congr ?_ ?_
    · intro t ht
      have : (fImp t τ).f1 = (τ / t - 0.5) / Real.sqrt τ * (fImp t τ).f0 := rfl
      rw [this, i0 t ht]
      have e : dW (1 + 1) τ 0 t = dW 1 τ 0 t / t := by
        unfold dW; rw [pow_succ]; field_simp
      rw [e]
      norm_num
      field_simp
      ring
    · rw [hf1, lL, lL, ← hE]; push_cast
      field_simp
      ring
  · refine ((l3.smul (Real.sqrt τ * τ / Real.sqrt Real.pi)).add
      (l2.smul (-(3 / 2) * Real.sqrt τ / Real.sqrt Real.pi))).congr ?_ ?_
    · intro t ht
      have : (fImp t τ).f2 = (τ / t - 1.5) / t * (fImp t τ).f0 := rfl
      rw [this, i0 t ht]
      have e : dW (1 + 1) τ 0 t = dW 1 τ 0 t / t := by
        unfold dW; rw [pow_succ]; field_simp
      have e' : dW (2 + 1) τ 0 t = dW 1 τ 0 t / t ^ 2 := by
        unfold dW; rw [pow_succ]; field_simp
      rw [e, e']
      norm_num
      field_simp
      ring
    · rw [hf2, lL, lL, ← hE]; push_cast
      · field_simp
        ring
      all_goals simp

/-- The impulse diffusion functions are the time derivatives of the step diffusion functions. -/
theorem fStep_deriv {τ t : ℝ} (hτ : 0 < τ) (ht : 0 < t) :
    HasDerivAt (fun t => (fStep t τ).f0) (fImp t τ).f0 t ∧
    HasDerivAt (fun t => (fStep t τ).f1) (fImp t τ).f1 t ∧
    HasDerivAt (fun t => (fStep t τ).f2) (fImp t τ).f2 t := by
  have hpi : 0 < Real.sqrt Real.pi := Real.sqrt_pos.2 Real.pi_pos
  have ha : 0 < Real.sqrt τ := Real.sqrt_pos.2 hτ
  have hr : 0 < Real.sqrt t := Real.sqrt_pos.2 ht
  have i0 : (fImp t τ).f0 = Real.sqrt τ / Real.sqrt Real.pi * dW 1 τ 0 t := by
    have e3 : Real.sqrt (t ^ 3) = Real.sqrt t * t := by
      have : t ^ 3 = t * (t * t) := by ring
      rw [this, Real.sqrt_mul ht.le, Real.sqrt_mul_self ht.le]
    simp only [fImp, dW]
    rw [Real.sqrt_div hτ.le, Real.sqrt_mul Real.pi_pos.le, e3, zero_mul, sub_zero, pow_one]
    field_simp
  have e2 : dW (0 + 2) τ 0 t = dW 1 τ 0 t / t := by
    unfold dW; rw [pow_succ]; field_simp
  have e3 : dW (1 + 2) τ 0 t = dW 1 τ 0 t / t ^ 2 := by
    unfold dW; rw [pow_succ]; field_simp
  have e2' : dW (1 + 1) τ 0 t = dW 1 τ 0 t / t := e2
  have ev : ∀ᶠ u : ℝ in 𝓝 t, 0 < u := lt_mem_nhds ht
  refine ⟨?_, ?_, ?_⟩
  · have h := dK_hasDeriv (c := 0) hτ.le ht
    have e : (fun t => (fStep t τ).f0) =ᶠ[𝓝 t] dK τ 0 := by
      filter_upwards [ev] with u hu
      simp [fStep, dK, Real.sqrt_div hτ.le]
    refine (h.congr_of_eventuallyEq e).congr_deriv ?_
    rw [i0, zero_pow two_ne_zero]; ring
  · have h := (dW_hasDeriv (τ := τ) (s := 0) 0 ht).const_mul (1 / Real.sqrt Real.pi)
    have e : (fun t => (fStep t τ).f1) =ᶠ[𝓝 t] fun t => 1 / Real.sqrt Real.pi * dW 0 τ 0 t := by
      filter_upwards [ev] with u hu
      have := Real.sqrt_pos.2 hu
      simp only [fStep, dW, pow_zero, mul_one, zero_mul, sub_zero]
      rw [Real.sqrt_mul Real.pi_pos.le]
      field_simp
    refine (h.congr_of_eventuallyEq e).congr_deriv ?_
    have : (fImp t τ).f1 = (τ / t - 0.5) / Real.sqrt τ * (fImp t τ).f0 := rfl
    rw [this, i0, e2]
    norm_num
    field_simp
  · have h := (dW_hasDeriv (τ := τ) (s := 0) 1 ht).const_mul (Real.sqrt τ / Real.sqrt Real.pi)
    have e : (fun t => (fStep t τ).f2) =ᶠ[𝓝 t]
        fun t => Real.sqrt τ / Real.sqrt Real.pi * dW 1 τ 0 t := by
      filter_upwards [ev] with u hu
      have := Real.sqrt_pos.2 hu
      simp only [fStep, dW, pow_one, zero_mul, sub_zero]
      rw [Real.sqrt_mul Real.pi_pos.le]
      field_simp
    refine (h.congr_of_eventuallyEq e).congr_deriv ?_
    have : (fImp t τ).f2 = (τ / t - 1.5) / t * (fImp t τ).f0 := rfl
    rw [this, i0, e3, e2']
    norm_num
    field_simp

/-- The step diffusion functions vanish at `t → 0+`. -/
theorem fStep_zero {τ : ℝ} (hτ : 0 < τ) :
    Tendsto (fun t => (fStep t τ).f0) (𝓝[>] 0) (𝓝 0) ∧
    Tendsto (fun t => (fStep t τ).f1) (𝓝[>] 0) (𝓝 0) ∧
    Tendsto (fun t => (fStep t τ).f2) (𝓝[>] 0) (𝓝 0) := by
  have hpi : 0 < Real.sqrt Real.pi := Real.sqrt_pos.2 Real.pi_pos
  refine ⟨?_, ?_, ?_⟩
  · refine (dK_zero (c := 0) hτ).congr fun u => ?_
    simp [fStep, dK, Real.sqrt_div hτ.le]
  · have h := (dW_zero (s := 0) 0 hτ).const_mul (1 / Real.sqrt Real.pi)
    rw [mul_zero] at h
    refine h.congr' ?_
    filter_upwards [self_mem_nhdsWithin] with u hu
    have := Real.sqrt_pos.2 hu
    simp only [fStep, dW, pow_zero, mul_one, zero_mul, sub_zero]
    rw [Real.sqrt_mul Real.pi_pos.le]
    field_simp
  · have h := (dW_zero (s := 0) 1 hτ).const_mul (Real.sqrt τ / Real.sqrt Real.pi)
    rw [mul_zero] at h
    refine h.congr' ?_
    filter_upwards [self_mem_nhdsWithin] with u hu
    have hu : 0 < u := hu
    have := Real.sqrt_pos.2 hu
    simp only [fStep, dW, pow_one, zero_mul, sub_zero]
    rw [Real.sqrt_mul Real.pi_pos.le]
    field_simp

end Verif.Lemmas
