import Verif.Lemmas.ModBessel
import Mathlib.Analysis.Calculus.MeanValue

/-!
# The mean of `K₀` over a circle is `I₀ K₀`
-/

namespace Verif.Lemmas
open Verif.Spec MeasureTheory Set Filter Topology

/-- Differentiation under an integral over one period. -/
theorem circ_deriv {F F' : ℝ → ℝ → ℂ} {b : ℝ}
    (hF : ∀ a ∈ Ioo (-b) b, ∀ θ, HasDerivAt (fun a => F a θ) (F' a θ) a)
    (hF' : ContinuousOn (fun q : ℝ × ℝ => F' q.1 q.2) (Ioo (-b) b ×ˢ univ))
    (hc : ContinuousOn (fun q : ℝ × ℝ => F q.1 q.2) (Ioo (-b) b ×ˢ univ)) {a : ℝ} (ha : a ∈ Ioo (-b) b) :
    HasDerivAt (fun a => ∫ θ in (0 : ℝ)..(2 * Real.pi), F a θ)
      (∫ θ in (0 : ℝ)..(2 * Real.pi), F' a θ) a := by
  have slice : ∀ {G : ℝ → ℝ → ℂ}, ContinuousOn (fun q : ℝ × ℝ => G q.1 q.2) (Ioo (-b) b ×ˢ univ) →
      ∀ x ∈ Ioo (-b) b, Continuous (G x) := by
    intro G hG x hx
    rw [← continuousOn_univ]
    exact hG.comp (f := fun θ : ℝ => (x, θ)) (by fun_prop) (fun θ _ => ⟨hx, mem_univ _⟩)
  obtain ⟨c, hac, hcb⟩ := exists_between (abs_lt.2 ha)
  have hsub : Ioo (-c) c ⊆ Ioo (-b) b := Ioo_subset_Ioo (by linarith) hcb.le
  have hK : IsCompact (Icc (-c) c ×ˢ Icc (0 : ℝ) (2 * Real.pi)) := isCompact_Icc.prod isCompact_Icc
  obtain ⟨C, hC⟩ := hK.exists_bound_of_continuousOn (f := fun q : ℝ × ℝ => F' q.1 q.2)
    (hF'.mono (prod_mono (Icc_subset_Ioo (by linarith) hcb) (subset_univ _)))
  refine (intervalIntegral.hasDerivAt_integral_of_dominated_loc_of_deriv_le
    (F := F) (F' := F') (s := Ioo (-c) c) (bound := fun _ => C)
    (isOpen_Ioo.mem_nhds (abs_lt.1 hac)) ?_ ?_ ?_ ?_ ?_ ?_).2
  · filter_upwards [isOpen_Ioo.mem_nhds ha] with x hx
    exact (slice hc x hx).aestronglyMeasurable
  · exact (slice hc a ha).intervalIntegrable _ _
  · exact (slice hF' a ha).aestronglyMeasurable
  · refine Eventually.of_forall fun θ hθ x hx => ?_
    have hp := Real.pi_pos
    rw [uIoc_of_le (by positivity)] at hθ
    exact hC (x, θ) ⟨Ioo_subset_Icc_self hx, Ioc_subset_Icc_self hθ⟩
  · exact continuous_const.intervalIntegrable _ _
  · exact Eventually.of_forall fun θ _ x hx => hF x (hsub hx) θ

/-- `K_n` on the real line. -/
noncomputable def kr (n : ℕ) (y : ℝ) : ℂ := besselK n (y : ℂ)

theorem kr0_deriv {y : ℝ} (hy : 0 < y) : HasDerivAt (kr 0) (-kr 1 y) y :=
  (K0_deriv (z := (y : ℂ)) (by simpa using hy)).comp_ofReal

theorem kr1_deriv {y : ℝ} (hy : 0 < y) : HasDerivAt (kr 1) (-kr 0 y - kr 1 y / y) y :=
  (K1_deriv (z := (y : ℂ)) (by simpa using hy)).comp_ofReal

section
variable (b : ℝ)

noncomputable def crho (a θ : ℝ) : ℝ := Real.sqrt (a ^ 2 + b ^ 2 - 2 * a * b * Real.cos θ)

theorem crho_arg {a : ℝ} (ha : a ∈ Ioo (-b) b) (θ : ℝ) : 0 < a ^ 2 + b ^ 2 - 2 * a * b * Real.cos θ := by
  have h1 := Real.neg_one_le_cos θ
  have h2 := Real.cos_le_one θ
  obtain ⟨h3, h4⟩ := ha
  have hs := Real.sin_sq_add_cos_sq θ
  have : a ^ 2 + b ^ 2 - 2 * a * b * Real.cos θ =
      (1 + Real.cos θ) / 2 * (b - a) ^ 2 + (1 - Real.cos θ) / 2 * (b + a) ^ 2 := by ring
  rw [this]
  rcases lt_or_ge (-1) (Real.cos θ) with h | h
  · have : 0 < (1 + Real.cos θ) / 2 * (b - a) ^ 2 := mul_pos (by linarith) (pow_pos (by linarith) 2)
    have : 0 ≤ (1 - Real.cos θ) / 2 * (b + a) ^ 2 := mul_nonneg (by linarith) (sq_nonneg _)
    linarith
  · have : 0 < (1 - Real.cos θ) / 2 * (b + a) ^ 2 := mul_pos (by linarith) (pow_pos (by linarith) 2)
    have : 0 ≤ (1 + Real.cos θ) / 2 * (b - a) ^ 2 := mul_nonneg (by linarith) (sq_nonneg _)
    linarith

theorem crho_pos {a : ℝ} (ha : a ∈ Ioo (-b) b) (θ : ℝ) : 0 < crho b a θ :=
  Real.sqrt_pos.2 (crho_arg b ha θ)

theorem crho_sq {a : ℝ} (ha : a ∈ Ioo (-b) b) (θ : ℝ) :
    crho b a θ ^ 2 = a ^ 2 + b ^ 2 - 2 * a * b * Real.cos θ := Real.sq_sqrt (crho_arg b ha θ).le

theorem crho_da {a : ℝ} (ha : a ∈ Ioo (-b) b) (θ : ℝ) :
    HasDerivAt (fun a => crho b a θ) ((a - b * Real.cos θ) / crho b a θ) a := by
  have h1 : HasDerivAt (fun a : ℝ => a ^ 2 + b ^ 2 - 2 * a * b * Real.cos θ)
      (2 * a - 2 * b * Real.cos θ) a := by
    have h := (((hasDerivAt_id a).pow 2).add_const (b ^ 2)).sub
      ((((hasDerivAt_id a).const_mul 2).mul_const b).mul_const (Real.cos θ))
    refine h.congr_deriv ?_
    simp
  refine (h1.sqrt (crho_arg b ha θ).ne').congr_deriv ?_
  unfold crho
  have := (crho_pos b ha θ).ne'
  unfold crho at this
  field_simp

theorem crho_dt {a : ℝ} (ha : a ∈ Ioo (-b) b) (θ : ℝ) :
    HasDerivAt (fun θ => crho b a θ) (a * b * Real.sin θ / crho b a θ) θ := by
  have h1 : HasDerivAt (fun θ : ℝ => a ^ 2 + b ^ 2 - 2 * a * b * Real.cos θ)
      (2 * a * b * Real.sin θ) θ := by
    have h := ((Real.hasDerivAt_cos θ).const_mul (2 * a * b)).const_sub (a ^ 2 + b ^ 2)
    refine h.congr_deriv ?_
    ring
  refine (h1.sqrt (crho_arg b ha θ).ne').congr_deriv ?_
  unfold crho
  have := (crho_pos b ha θ).ne'
  unfold crho at this
  field_simp

theorem crho_cont : Continuous fun q : ℝ × ℝ => crho b q.1 q.2 := by
  unfold crho; fun_prop

noncomputable def gF (a θ : ℝ) : ℂ := kr 0 (crho b a θ)
noncomputable def gA (a θ : ℝ) : ℂ := -kr 1 (crho b a θ) * ((a - b * Real.cos θ : ℝ) : ℂ) / crho b a θ
noncomputable def gAA (a θ : ℝ) : ℂ :=
  kr 0 (crho b a θ) * ((a - b * Real.cos θ : ℝ) : ℂ) ^ 2 / (crho b a θ) ^ 2 +
    2 * kr 1 (crho b a θ) * ((a - b * Real.cos θ : ℝ) : ℂ) ^ 2 / (crho b a θ) ^ 3 -
    kr 1 (crho b a θ) / crho b a θ
noncomputable def gT (a θ : ℝ) : ℂ := -kr 1 (crho b a θ) * ((b * Real.sin θ : ℝ) : ℂ) / crho b a θ
noncomputable def gTT (a θ : ℝ) : ℂ :=
  kr 0 (crho b a θ) * (a * ((b * Real.sin θ : ℝ) : ℂ) ^ 2) / (crho b a θ) ^ 2 +
    2 * kr 1 (crho b a θ) * (a * ((b * Real.sin θ : ℝ) : ℂ) ^ 2) / (crho b a θ) ^ 3 -
    kr 1 (crho b a θ) * ((b * Real.cos θ : ℝ) : ℂ) / crho b a θ

theorem gF_da {a : ℝ} (ha : a ∈ Ioo (-b) b) (θ : ℝ) : HasDerivAt (fun a => gF b a θ) (gA b a θ) a := by
  have h := (kr0_deriv (crho_pos b ha θ)).scomp a (crho_da b ha θ)
  refine h.congr_deriv ?_
  rw [gA, Complex.real_smul]; push_cast; ring

theorem gA_da {a : ℝ} (ha : a ∈ Ioo (-b) b) (θ : ℝ) : HasDerivAt (fun a => gA b a θ) (gAA b a θ) a := by
  have h1 := ((kr1_deriv (crho_pos b ha θ)).scomp a (crho_da b ha θ)).neg
  have h2 : HasDerivAt (fun a : ℝ => ((a - b * Real.cos θ : ℝ) : ℂ)) 1 a := by
    have := ((hasDerivAt_id a).sub_const (b * Real.cos θ)).ofReal_comp
    simpa using this
  have h3 := (crho_da b ha θ).ofReal_comp
  have hr : (crho b a θ : ℂ) ≠ 0 := by exact_mod_cast (crho_pos b ha θ).ne'
  refine ((h1.mul h2).div h3 hr).congr_deriv ?_
  simp only [Pi.neg_apply, Function.comp_def, Pi.mul_apply]
  rw [gAA, Complex.real_smul]
  push_cast
  field_simp
  ring

theorem gT_dt {a : ℝ} (ha : a ∈ Ioo (-b) b) (θ : ℝ) : HasDerivAt (fun θ => gT b a θ) (gTT b a θ) θ := by
  have h1 := ((kr1_deriv (crho_pos b ha θ)).scomp θ (crho_dt b ha θ)).neg
  have h2 : HasDerivAt (fun θ : ℝ => ((b * Real.sin θ : ℝ) : ℂ)) ((b * Real.cos θ : ℝ) : ℂ) θ :=
    ((Real.hasDerivAt_sin θ).const_mul b).ofReal_comp
  have h3 := (crho_dt b ha θ).ofReal_comp
  have hr : (crho b a θ : ℂ) ≠ 0 := by exact_mod_cast (crho_pos b ha θ).ne'
  refine ((h1.mul h2).div h3 hr).congr_deriv ?_
  simp only [Pi.neg_apply, Function.comp_def, Pi.mul_apply]
  rw [gTT, Complex.real_smul]
  push_cast
  field_simp
  ring

/-- The modified Helmholtz equation in polar coordinates. -/
theorem gPDE {a : ℝ} (ha : a ∈ Ioo (-b) b) (θ : ℝ) :
    gA b a θ + a * gAA b a θ + gTT b a θ = a * gF b a θ := by
  have hr : (crho b a θ : ℂ) ≠ 0 := by exact_mod_cast (crho_pos b ha θ).ne'
  have hs : (crho b a θ : ℂ) ^ 2 = a ^ 2 + b ^ 2 - 2 * a * b * Real.cos θ := by
    exact_mod_cast crho_sq b ha θ
  have hsc : (Real.sin θ : ℂ) ^ 2 = 1 - (Real.cos θ : ℂ) ^ 2 := by
    exact_mod_cast Real.sin_sq θ
  have key : ((a - b * Real.cos θ : ℝ) : ℂ) ^ 2 + ((b * Real.sin θ : ℝ) : ℂ) ^ 2 = (crho b a θ : ℂ) ^ 2 := by
    rw [hs, Complex.ofReal_mul b (Real.sin θ), mul_pow, hsc]; push_cast; ring
  have hsub : ((a - b * Real.cos θ : ℝ) : ℂ) = a - ((b * Real.cos θ : ℝ) : ℂ) := by push_cast; ring
  unfold gA gAA gTT gF
  generalize kr 0 (crho b a θ) = k0 at *
  generalize kr 1 (crho b a θ) = k1 at *
  generalize (crho b a θ : ℂ) = r at *
  generalize ((a - b * Real.cos θ : ℝ) : ℂ) = u at *
  generalize ((b * Real.sin θ : ℝ) : ℂ) = v at *
  generalize ((b * Real.cos θ : ℝ) : ℂ) = w at *
  clear hs hsc
  field_simp
  subst hsub
  linear_combination (k0 * a * r + 2 * k1 * a) * key

theorem on_region {G : ℝ × ℝ → ℂ} (h : ∀ q : ℝ × ℝ, q.1 ∈ Ioo (-b) b → ContinuousAt G q) :
    ContinuousOn G (Ioo (-b) b ×ˢ univ) := fun q hq => (h q hq.1).continuousWithinAt

theorem kr_cont {n : ℕ} (hn : n ≤ 1) {y : ℝ} (hy : 0 < y) : ContinuousAt (kr n) y := by
  interval_cases n
  · exact (kr0_deriv hy).continuousAt
  · exact (kr1_deriv hy).continuousAt

theorem krho_cont {n : ℕ} (hn : n ≤ 1) {q : ℝ × ℝ} (hq : q.1 ∈ Ioo (-b) b) :
    ContinuousAt (fun q : ℝ × ℝ => kr n (crho b q.1 q.2)) q :=
  ContinuousAt.comp (f := fun q : ℝ × ℝ => crho b q.1 q.2) (kr_cont hn (crho_pos b hq q.2))
    (crho_cont b).continuousAt

theorem crhoC_cont (q : ℝ × ℝ) : ContinuousAt (fun q : ℝ × ℝ => (crho b q.1 q.2 : ℂ)) q :=
  (Complex.continuous_ofReal.comp (crho_cont b)).continuousAt

theorem crhoC_ne {q : ℝ × ℝ} (hq : q.1 ∈ Ioo (-b) b) : (crho b q.1 q.2 : ℂ) ≠ 0 := by
  exact_mod_cast (crho_pos b hq q.2).ne'

theorem gF_cont : ContinuousOn (fun q : ℝ × ℝ => gF b q.1 q.2) (Ioo (-b) b ×ˢ univ) :=
  on_region b fun _ hq => krho_cont b (by norm_num) hq

theorem gA_cont : ContinuousOn (fun q : ℝ × ℝ => gA b q.1 q.2) (Ioo (-b) b ×ˢ univ) := by
  refine on_region b fun q hq => ?_
  unfold gA
  refine ContinuousAt.div (ContinuousAt.mul (krho_cont b le_rfl hq).neg ?_) (crhoC_cont b q) (crhoC_ne b hq)
  exact (Complex.continuous_ofReal.comp (by fun_prop)).continuousAt

theorem gAA_cont : ContinuousOn (fun q : ℝ × ℝ => gAA b q.1 q.2) (Ioo (-b) b ×ˢ univ) := by
  refine on_region b fun q hq => ?_
  have h0 := krho_cont b (n := 0) (by norm_num) hq
  have h1 := krho_cont b (n := 1) le_rfl hq
  have hr := crhoC_cont b q
  have hn := crhoC_ne b hq
  have hu : ContinuousAt (fun q : ℝ × ℝ => ((q.1 - b * Real.cos q.2 : ℝ) : ℂ)) q :=
    (Complex.continuous_ofReal.comp (by fun_prop)).continuousAt
  unfold gAA
  exact (((h0.mul (hu.pow 2)).div (hr.pow 2) (pow_ne_zero 2 hn)).add
    (((h1.const_mul 2).mul (hu.pow 2)).div (hr.pow 3) (pow_ne_zero 3 hn))).sub (h1.div hr hn)

theorem gTT_cont : ContinuousOn (fun q : ℝ × ℝ => gTT b q.1 q.2) (Ioo (-b) b ×ˢ univ) := by
  refine on_region b fun q hq => ?_
  have h0 := krho_cont b (n := 0) (by norm_num) hq
  have h1 := krho_cont b (n := 1) le_rfl hq
  have hr := crhoC_cont b q
  have hn := crhoC_ne b hq
  have hu : ContinuousAt (fun q : ℝ × ℝ => (q.1 : ℂ) * ((b * Real.sin q.2 : ℝ) : ℂ) ^ 2) q := by
    refine ContinuousAt.mul (Complex.continuous_ofReal.comp continuous_fst).continuousAt
      (ContinuousAt.pow ?_ 2)
    exact (Complex.continuous_ofReal.comp (by fun_prop)).continuousAt
  have hw : ContinuousAt (fun q : ℝ × ℝ => ((b * Real.cos q.2 : ℝ) : ℂ)) q :=
    (Complex.continuous_ofReal.comp (by fun_prop)).continuousAt
  unfold gTT
  exact (((h0.mul hu).div (hr.pow 2) (pow_ne_zero 2 hn)).add
    (((h1.const_mul 2).mul hu).div (hr.pow 3) (pow_ne_zero 3 hn))).sub ((h1.mul hw).div hr hn)

theorem region_slice {G : ℝ → ℝ → ℂ}
    (hG : ContinuousOn (fun q : ℝ × ℝ => G q.1 q.2) (Ioo (-b) b ×ˢ univ)) {x : ℝ} (hx : x ∈ Ioo (-b) b) :
    Continuous (G x) := by
  rw [← continuousOn_univ]
  exact hG.comp (f := fun θ : ℝ => (x, θ)) (by fun_prop) (fun θ _ => ⟨hx, mem_univ _⟩)

noncomputable def gM (a : ℝ) : ℂ := ∫ θ in (0 : ℝ)..(2 * Real.pi), gF b a θ
noncomputable def gN (a : ℝ) : ℂ := ∫ θ in (0 : ℝ)..(2 * Real.pi), gA b a θ
noncomputable def gN' (a : ℝ) : ℂ := ∫ θ in (0 : ℝ)..(2 * Real.pi), gAA b a θ

theorem gM_deriv {a : ℝ} (ha : a ∈ Ioo (-b) b) : HasDerivAt (gM b) (gN b a) a :=
  circ_deriv (fun _ hx θ => gF_da b hx θ) (gA_cont b) (gF_cont b) ha

theorem gN_deriv {a : ℝ} (ha : a ∈ Ioo (-b) b) : HasDerivAt (gN b) (gN' b a) a :=
  circ_deriv (fun _ hx θ => gA_da b hx θ) (gAA_cont b) (gA_cont b) ha

theorem gODE {a : ℝ} (ha : a ∈ Ioo (-b) b) : gN b a + a * gN' b a = a * gM b a := by
  have cF := region_slice b (gF_cont b) ha
  have cA := region_slice b (gA_cont b) ha
  have cAA := region_slice b (gAA_cont b) ha
  have cTT := region_slice b (gTT_cont b) ha
  have hT : (∫ θ in (0 : ℝ)..(2 * Real.pi), gTT b a θ) = 0 := by
    rw [intervalIntegral.integral_eq_sub_of_hasDerivAt (fun θ _ => gT_dt b ha θ)
      (cTT.intervalIntegrable _ _)]
    simp [gT]
  have e : (∫ θ in (0 : ℝ)..(2 * Real.pi), (gA b a θ + a * gAA b a θ + gTT b a θ)) =
      ∫ θ in (0 : ℝ)..(2 * Real.pi), a * gF b a θ := by
    congr 1; funext θ; exact gPDE b ha θ
  have cS : Continuous fun θ => gA b a θ + a * gAA b a θ := cA.add (cAA.const_mul _)
  rw [intervalIntegral.integral_add (cS.intervalIntegrable _ _)
    (cTT.intervalIntegrable _ _), intervalIntegral.integral_add (cA.intervalIntegrable _ _)
    ((cAA.const_mul _).intervalIntegrable _ _), intervalIntegral.integral_const_mul,
    intervalIntegral.integral_const_mul, hT, add_zero] at e
  exact e

end

theorem I0_real_pos (a : ℝ) : 0 < (besselI 0 (a : ℂ)).re := by
  have hp := Real.pi_pos
  have e : imom 0 (a : ℂ) = ((∫ θ in (0 : ℝ)..(2 * Real.pi), Real.exp (a * Real.cos θ) : ℝ) : ℂ) := by
    rw [← intervalIntegral.integral_ofReal]
    unfold imom iex
    congr 1; funext θ; push_cast; ring_nf
  have h : 0 < ∫ θ in (0 : ℝ)..(2 * Real.pi), Real.exp (a * Real.cos θ) :=
    intervalIntegral.intervalIntegral_pos_of_pos
      ((by fun_prop : Continuous fun θ : ℝ => Real.exp (a * Real.cos θ)).intervalIntegrable _ _)
      (fun θ => Real.exp_pos _) (by positivity)
  rw [besselI_zero', e, show 1 / (2 * (Real.pi : ℂ)) = ((1 / (2 * Real.pi) : ℝ) : ℂ) by push_cast; ring,
    ← Complex.ofReal_mul, Complex.ofReal_re]
  positivity

theorem I0_real_ne (a : ℝ) : besselI 0 (a : ℂ) ≠ 0 := fun h => by
  have := I0_real_pos a; rw [h] at this; simp at this

theorem I1_at_zero : besselI 1 0 = 0 := by
  rw [besselI_one']
  unfold imom iex
  simp only [zero_mul, Complex.exp_zero, mul_one, pow_one]
  rw [intervalIntegral.integral_ofReal]
  simp

theorem I0_at_zero : besselI 0 0 = 1 := by
  have hp : (Real.pi : ℂ) ≠ 0 := by exact_mod_cast Real.pi_ne_zero
  rw [besselI_zero']
  simp [imom, iex]
  field_simp

theorem const_on {f : ℝ → ℂ} {b : ℝ} (h : ∀ x ∈ Ioo (-b) b, HasDerivAt f 0 x) {a : ℝ} (h0 : 0 ≤ a)
    (ha : a < b) : f a = f 0 := by
  have hsub : ∀ x ∈ Icc 0 a, x ∈ Ioo (-b) b := fun x hx => ⟨by linarith [hx.1], lt_of_le_of_lt hx.2 ha⟩
  exact constant_of_has_deriv_right_zero (fun x hx => (h x (hsub x hx)).continuousAt.continuousWithinAt)
    (fun x hx => (h x (hsub x (Ico_subset_Icc_self hx))).hasDerivWithinAt) a ⟨h0, le_rfl⟩

/-- The mean of `K₀` over a circle around a point at distance `b`, of radius `a < b`. -/
theorem graf {a b : ℝ} (h0 : 0 ≤ a) (hab : a < b) :
    (∫ θ in (0 : ℝ)..(2 * Real.pi), besselK 0 ((Real.sqrt (a ^ 2 + b ^ 2 - 2 * a * b * Real.cos θ) : ℝ) : ℂ)) =
      2 * Real.pi * (besselI 0 a * besselK 0 b) := by
  have hb : 0 < b := lt_of_le_of_lt h0 hab
  have i0 : ∀ x : ℝ, HasDerivAt (fun x : ℝ => besselI 0 (x : ℂ)) (besselI 1 x) x := fun x =>
    (I0_deriv (x : ℂ)).comp_ofReal
  have i1 : ∀ x : ℝ, HasDerivAt (fun x : ℝ => (x : ℂ) * besselI 1 (x : ℂ)) (x * besselI 0 x) x := fun x =>
    (I1_mul_deriv (x : ℂ)).comp_ofReal
  have hid : ∀ x : ℝ, HasDerivAt (fun x : ℝ => (x : ℂ)) 1 x := fun x => by
    simpa using (hasDerivAt_id x).ofReal_comp
  have hW : ∀ x ∈ Ioo (-b) b, (x : ℂ) * (gM b x * besselI 1 x - gN b x * besselI 0 x) = 0 := by
    intro x hx
    have hd : ∀ x ∈ Ioo (-b) b, HasDerivAt (fun x : ℝ => gM b x * ((x : ℂ) * besselI 1 x) -
        (x * gN b x) * besselI 0 x) 0 x := by
      intro x hx
      refine (((gM_deriv b hx).mul (i1 x)).sub (((hid x).mul (gN_deriv b hx)).mul (i0 x))).congr_deriv ?_
      have := gODE b hx
      simp only [Pi.mul_apply]
      linear_combination -(besselI 0 x) * this
    have hc := (isOpen_Ioo (a := -b) (b := b)).is_const_of_deriv_eq_zero isPreconnected_Ioo
      (fun x hx => (hd x hx).differentiableAt.differentiableWithinAt)
      (fun x hx => (hd x hx).deriv) hx (show (0 : ℝ) ∈ Ioo (-b) b from ⟨by linarith, hb⟩)
    simp only [Complex.ofReal_zero, zero_mul, mul_zero, sub_zero] at hc
    linear_combination hc
  have hN0 : gN b 0 = 0 := by
    unfold gN gA crho
    have : ∀ θ : ℝ, -kr 1 (Real.sqrt (0 ^ 2 + b ^ 2 - 2 * 0 * b * Real.cos θ)) *
        ((0 - b * Real.cos θ : ℝ) : ℂ) / (Real.sqrt (0 ^ 2 + b ^ 2 - 2 * 0 * b * Real.cos θ) : ℝ) =
        (kr 1 b) * (Real.cos θ : ℂ) := by
      intro θ
      rw [show (0 : ℝ) ^ 2 + b ^ 2 - 2 * 0 * b * Real.cos θ = b ^ 2 by ring, Real.sqrt_sq hb.le]
      have : (b : ℂ) ≠ 0 := by exact_mod_cast hb.ne'
      push_cast
      field_simp
      ring
    simp only [this]
    rw [intervalIntegral.integral_const_mul, intervalIntegral.integral_ofReal]
    simp
  have hQ : ∀ x ∈ Ioo (-b) b, HasDerivAt (fun x : ℝ => gM b x / besselI 0 x) 0 x := by
    intro x hx
    refine ((gM_deriv b hx).div (i0 x) (I0_real_ne x)).congr_deriv ?_
    rcases eq_or_ne x 0 with rfl | h
    · rw [hN0]; simp [I1_at_zero]
    · have hx0 : (x : ℂ) ≠ 0 := by exact_mod_cast h
      have := (mul_eq_zero.1 (hW x hx)).resolve_left hx0
      rw [show gN b x * besselI 0 x - gM b x * besselI 1 x = 0 by linear_combination -this, zero_div]
  have h := const_on hQ h0 hab
  have hM0 : gM b 0 = 2 * Real.pi * besselK 0 b := by
    unfold gM gF crho kr
    simp only [show ∀ θ : ℝ, (0 : ℝ) ^ 2 + b ^ 2 - 2 * 0 * b * Real.cos θ = b ^ 2 by intro θ; ring,
      Real.sqrt_sq hb.le]
    simp
  rw [Complex.ofReal_zero, I0_at_zero, div_one, hM0, div_eq_iff (I0_real_ne a)] at h
  calc _ = gM b a := rfl
    _ = _ := by rw [h]; ring

end Verif.Lemmas
