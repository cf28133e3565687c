import Verif.Lemmas.Erfc
import Mathlib.Analysis.SpecialFunctions.Pow.Asymptotics
import Mathlib.Analysis.SpecialFunctions.Sqrt
import Mathlib.Probability.Moments.ComplexMGF

/-!
# Laplace transforms of the diffusion functions
-/

namespace Verif.Lemmas
open MeasureTheory Set Filter Topology Verif.Halfspace

/-- `exp(-τ/t - s t) t^(-n-1/2)`. -/
noncomputable def dW (n : ℕ) (τ s t : ℝ) : ℝ := Real.exp (-τ / t - s * t) / (Real.sqrt t * t ^ n)

theorem dW_nonneg (n : ℕ) {τ s t : ℝ} (ht : 0 < t) : 0 ≤ dW n τ s t := by
  unfold dW; positivity

theorem sqrt_hasDeriv {t : ℝ} (ht : 0 < t) :
    HasDerivAt Real.sqrt (1 / (2 * Real.sqrt t)) t := Real.hasDerivAt_sqrt ht.ne'

theorem dW_hasDeriv (n : ℕ) {τ s t : ℝ} (ht : 0 < t) :
    HasDerivAt (dW n τ s) (τ * dW (n + 2) τ s t - (n + 1 / 2) * dW (n + 1) τ s t - s * dW n τ s t)
      t := by
  have hr : 0 < Real.sqrt t := Real.sqrt_pos.2 ht
  have h1 : HasDerivAt (fun t : ℝ => -τ / t - s * t) (τ / t ^ 2 - s) t := by
    have ha := ((hasDerivAt_inv ht.ne').const_mul (-τ)).sub ((hasDerivAt_id t).const_mul s)
    refine (ha.congr_deriv ?_)
    simp only [mul_one]
    field_simp
  have h2 : HasDerivAt (fun t : ℝ => Real.sqrt t * t ^ n)
      (1 / (2 * Real.sqrt t) * t ^ n + Real.sqrt t * (n * t ^ (n - 1))) t :=
    (sqrt_hasDeriv ht).mul (hasDerivAt_pow n t)
  have h3 := h1.exp.div h2 (by positivity)
  refine h3.congr_deriv ?_
  have e : (n : ℝ) * t ^ (n - 1) = n * t ^ n / t := by
    cases n with
    | zero => simp
    | succ k => simp only [Nat.add_sub_cancel, pow_succ]; field_simp
  rw [e]
  unfold dW
  have hs : Real.sqrt t ^ 2 = t := Real.sq_sqrt ht.le
  generalize Real.exp (-τ / t - s * t) = X
  generalize Real.sqrt t = r at hs hr ⊢
  subst hs
  have hr' := hr.ne'
  simp only [pow_add, pow_one]
  generalize hP : (r ^ 2) ^ n = P
  have hP0 : P ≠ 0 := by rw [← hP]; positivity
  field_simp
  ring

theorem dW_zero (n : ℕ) {τ s : ℝ} (hτ : 0 < τ) : Tendsto (dW n τ s) (𝓝[>] 0) (𝓝 0) := by
  have h := (tendsto_rpow_mul_exp_neg_mul_atTop_nhds_zero (n + 1 / 2 : ℝ) τ hτ).comp
    tendsto_inv_nhdsGT_zero
  have h2 : Tendsto (fun t : ℝ => Real.exp (-(s * t))) (𝓝[>] 0) (𝓝 1) := by
    have : Tendsto (fun t : ℝ => Real.exp (-(s * t))) (𝓝 0) (𝓝 (Real.exp (-(s * 0)))) :=
      (by fun_prop : Continuous fun t : ℝ => Real.exp (-(s * t))).tendsto 0
    simp only [mul_zero, neg_zero, Real.exp_zero] at this
    exact this.mono_left nhdsWithin_le_nhds
  have h3 := h.mul h2
  rw [zero_mul] at h3
  refine h3.congr' ?_
  filter_upwards [self_mem_nhdsWithin] with t ht
  have ht : 0 < t := ht
  simp only [Function.comp_apply, dW]
  rw [Real.rpow_add (inv_pos.2 ht), ← Real.sqrt_eq_rpow, Real.rpow_natCast, Real.sqrt_inv, inv_pow,
    mul_assoc, ← Real.exp_add]
  have : -τ * t⁻¹ + -(s * t) = -τ / t - s * t := by ring
  rw [this]
  have := Real.sqrt_pos.2 ht
  field_simp

theorem dW_top (n : ℕ) {τ s : ℝ} (hτ : 0 < τ) (hs : 0 ≤ s) : Tendsto (dW n τ s) atTop (𝓝 0) := by
  have h : Tendsto (fun t : ℝ => (Real.sqrt t)⁻¹) atTop (𝓝 0) :=
    tendsto_inv_atTop_zero.comp Real.tendsto_sqrt_atTop
  refine squeeze_zero' ?_ ?_ h
  · filter_upwards [eventually_gt_atTop 0] with t ht using dW_nonneg n ht
  · filter_upwards [eventually_ge_atTop 1] with t ht
    have ht0 : 0 < t := by linarith
    have hr : 0 < Real.sqrt t := Real.sqrt_pos.2 ht0
    have h1 : Real.exp (-τ / t - s * t) ≤ 1 := by
      rw [Real.exp_le_one_iff]
      have : 0 ≤ τ / t := by positivity
      have : 0 ≤ s * t := by positivity
      rw [neg_div]; linarith
    have h2 : (1 : ℝ) ≤ t ^ n := one_le_pow₀ ht
    unfold dW
    rw [inv_eq_one_div, div_le_div_iff₀ (by positivity) hr]
    nlinarith [Real.exp_pos (-τ / t - s * t)]

/-- The building block of the primitives. -/
noncomputable def dK (τ c t : ℝ) : ℝ :=
  Real.exp (2 * Real.sqrt τ * c) * erfc (Real.sqrt τ / Real.sqrt t + c * Real.sqrt t)

theorem dK_hasDeriv {τ c t : ℝ} (hτ : 0 ≤ τ) (ht : 0 < t) :
    HasDerivAt (dK τ c) (1 / Real.sqrt Real.pi *
      (Real.sqrt τ * dW 1 τ (c ^ 2) t - c * dW 0 τ (c ^ 2) t)) t := by
  have hr : 0 < Real.sqrt t := Real.sqrt_pos.2 ht
  have hq := sqrt_hasDeriv ht
  have h1 : HasDerivAt (fun t : ℝ => Real.sqrt τ / Real.sqrt t + c * Real.sqrt t)
      (-(Real.sqrt τ * (1 / (2 * Real.sqrt t))) / Real.sqrt t ^ 2 + c * (1 / (2 * Real.sqrt t))) t := by
    have := ((hasDerivAt_const t (Real.sqrt τ)).div hq hr.ne').add (hq.const_mul c)
    refine this.congr_deriv ?_
    ring
  have h2 := ((erfc_hasDeriv _).comp t h1).const_mul (Real.exp (2 * Real.sqrt τ * c))
  refine h2.congr_deriv ?_
  have hE : Real.exp (2 * Real.sqrt τ * c) *
      Real.exp (-(Real.sqrt τ / Real.sqrt t + c * Real.sqrt t) ^ 2) =
      Real.exp (-τ / t - c ^ 2 * t) := by
    rw [← Real.exp_add]
    congr 1
    have e1 : Real.sqrt t ^ 2 = t := Real.sq_sqrt ht.le
    have e2 : Real.sqrt τ ^ 2 = τ := Real.sq_sqrt hτ
    generalize Real.sqrt t = r at *
    generalize Real.sqrt τ = a at *
    subst e1 e2
    field_simp
    ring
  have hpi : 0 < Real.sqrt Real.pi := Real.sqrt_pos.2 Real.pi_pos
  have e1 : Real.sqrt t ^ 2 = t := Real.sq_sqrt ht.le
  calc _ = (Real.exp (2 * Real.sqrt τ * c) *
      Real.exp (-(Real.sqrt τ / Real.sqrt t + c * Real.sqrt t) ^ 2)) * (-(2 / Real.sqrt Real.pi) *
      (-(Real.sqrt τ * (1 / (2 * Real.sqrt t))) / Real.sqrt t ^ 2 + c * (1 / (2 * Real.sqrt t)))) := by
        ring
    _ = _ := by
        rw [hE]
        unfold dW
        generalize Real.exp (-τ / t - c ^ 2 * t) = X
        rw [e1]
        simp only [pow_one, pow_zero, mul_one]
        field_simp
        ring

theorem dK_zero {τ c : ℝ} (hτ : 0 < τ) : Tendsto (dK τ c) (𝓝[>] 0) (𝓝 0) := by
  have hs : Tendsto Real.sqrt (𝓝[>] 0) (𝓝[>] 0) := by
    refine tendsto_nhdsWithin_iff.2 ⟨?_, ?_⟩
    · have := Real.continuous_sqrt.tendsto 0
      rw [Real.sqrt_zero] at this
      exact this.mono_left nhdsWithin_le_nhds
    · filter_upwards [self_mem_nhdsWithin] with t ht using Real.sqrt_pos.2 ht
  have h1 : Tendsto (fun t : ℝ => Real.sqrt τ / Real.sqrt t) (𝓝[>] 0) atTop := by
    have := (tendsto_inv_nhdsGT_zero.comp hs).const_mul_atTop (Real.sqrt_pos.2 hτ)
    refine this.congr fun t => ?_
    simp [div_eq_mul_inv]
  have h2 : Tendsto (fun t : ℝ => c * Real.sqrt t) (𝓝[>] 0) (𝓝 (c * 0)) :=
    (hs.mono_right nhdsWithin_le_nhds).const_mul c
  have h3 := (erfc_atTop.comp (h1.atTop_add h2)).const_mul (Real.exp (2 * Real.sqrt τ * c))
  rw [mul_zero] at h3
  exact h3

theorem quot_top (τ : ℝ) : Tendsto (fun t : ℝ => Real.sqrt τ / Real.sqrt t) atTop (𝓝 0) := by
  have := (tendsto_inv_atTop_zero.comp Real.tendsto_sqrt_atTop).const_mul (Real.sqrt τ)
  rw [mul_zero] at this
  refine this.congr fun t => ?_
  simp [div_eq_mul_inv]

theorem dK_top_pos {τ c : ℝ} (hc : 0 < c) : Tendsto (dK τ c) atTop (𝓝 0) := by
  have h2 : Tendsto (fun t : ℝ => c * Real.sqrt t) atTop atTop :=
    Real.tendsto_sqrt_atTop.const_mul_atTop hc
  have h3 := (erfc_atTop.comp ((quot_top τ).add_atTop h2)).const_mul (Real.exp (2 * Real.sqrt τ * c))
  rw [mul_zero] at h3
  exact h3

theorem dK_top_neg {τ c : ℝ} (hc : c < 0) :
    Tendsto (dK τ c) atTop (𝓝 (Real.exp (2 * Real.sqrt τ * c) * 2)) := by
  have h2 : Tendsto (fun t : ℝ => c * Real.sqrt t) atTop atBot :=
    Real.tendsto_sqrt_atTop.const_mul_atTop_of_neg hc
  exact (erfc_atBot.comp ((quot_top τ).add_atBot h2)).const_mul (Real.exp (2 * Real.sqrt τ * c))

theorem dK_top_zero {τ : ℝ} : Tendsto (dK τ 0) atTop (𝓝 (erfc 0)) := by
  have h := (erfc_hasDeriv 0).continuousAt.tendsto.comp (quot_top τ)
  refine h.congr fun t => ?_
  simp [dK]

/-- `dW n τ s` has a primitive that vanishes at `0+` and tends to `L`. -/
def Prim (n : ℕ) (τ s L : ℝ) : Prop :=
  ∃ A : ℝ → ℝ, (∀ t : ℝ, 0 < t → HasDerivAt A (dW n τ s t) t) ∧ Tendsto A (𝓝[>] 0) (𝓝 0) ∧
    Tendsto A atTop (𝓝 L)

theorem Prim.int {n : ℕ} {τ s L : ℝ} (h : Prim n τ s L) :
    IntegrableOn (dW n τ s) (Ioi 0) ∧ ∫ t in Ioi 0, dW n τ s t = L := by
  obtain ⟨A, hd, h0, h1⟩ := h
  have := Ioi_ftc hd (fun t ht => dW_nonneg n ht) h0 h1
  rwa [sub_zero] at this

theorem prim_one {τ c : ℝ} (hτ : 0 < τ) (hc : 0 < c) :
    Prim 1 τ (c ^ 2) (Real.sqrt Real.pi / Real.sqrt τ * Real.exp (-(2 * Real.sqrt τ * c))) := by
  have ha : 0 < Real.sqrt τ := Real.sqrt_pos.2 hτ
  have hpi : 0 < Real.sqrt Real.pi := Real.sqrt_pos.2 Real.pi_pos
  refine ⟨fun t => Real.sqrt Real.pi / (2 * Real.sqrt τ) * (dK τ c t + dK τ (-c) t), ?_, ?_, ?_⟩
  · intro t ht
    have h2 := dK_hasDeriv (c := -c) hτ.le ht
    rw [neg_sq] at h2
    refine ((((dK_hasDeriv (c := c) hτ.le ht).add h2)).const_mul _).congr_deriv ?_
    field_simp
    ring
  · have := ((dK_zero (c := c) hτ).add (dK_zero (c := -c) hτ)).const_mul
      (Real.sqrt Real.pi / (2 * Real.sqrt τ))
    simpa using this
  · have := ((dK_top_pos (τ := τ) hc).add (dK_top_neg (τ := τ) (neg_lt_zero.2 hc))).const_mul
      (Real.sqrt Real.pi / (2 * Real.sqrt τ))
    refine this.trans (le_of_eq ?_)
    congr 1
    rw [mul_neg]
    field_simp
    ring

theorem prim_zero {τ c : ℝ} (hτ : 0 < τ) (hc : 0 < c) :
    Prim 0 τ (c ^ 2) (Real.sqrt Real.pi / c * Real.exp (-(2 * Real.sqrt τ * c))) := by
  have ha : 0 < Real.sqrt τ := Real.sqrt_pos.2 hτ
  have hpi : 0 < Real.sqrt Real.pi := Real.sqrt_pos.2 Real.pi_pos
  refine ⟨fun t => Real.sqrt Real.pi / (2 * c) * (dK τ (-c) t - dK τ c t), ?_, ?_, ?_⟩
  · intro t ht
    have h2 := dK_hasDeriv (c := -c) hτ.le ht
    rw [neg_sq] at h2
    refine ((h2.sub (dK_hasDeriv (c := c) hτ.le ht)).const_mul _).congr_deriv ?_
    field_simp
    ring
  · have := ((dK_zero (c := -c) hτ).sub (dK_zero (c := c) hτ)).const_mul
      (Real.sqrt Real.pi / (2 * c))
    simpa using this
  · have := ((dK_top_neg (τ := τ) (neg_lt_zero.2 hc)).sub (dK_top_pos (τ := τ) hc)).const_mul
      (Real.sqrt Real.pi / (2 * c))
    refine this.trans (le_of_eq ?_)
    congr 1
    rw [mul_neg]
    field_simp
    ring

theorem prim_one_dc {τ : ℝ} (hτ : 0 < τ) : ∃ L, Prim 1 τ 0 L := by
  have ha : 0 < Real.sqrt τ := Real.sqrt_pos.2 hτ
  have hpi : 0 < Real.sqrt Real.pi := Real.sqrt_pos.2 Real.pi_pos
  refine ⟨Real.sqrt Real.pi / Real.sqrt τ * erfc 0,
    fun t => Real.sqrt Real.pi / Real.sqrt τ * dK τ 0 t, ?_, ?_, ?_⟩
  · intro t ht
    have h2 := dK_hasDeriv (c := 0) hτ.le ht
    rw [zero_pow two_ne_zero] at h2
    refine (h2.const_mul _).congr_deriv ?_
    field_simp
    ring
  · have := (dK_zero (c := 0) hτ).const_mul (Real.sqrt Real.pi / Real.sqrt τ)
    simpa using this
  · exact dK_top_zero.const_mul _

theorem Prim.next {n : ℕ} {τ s L0 L1 : ℝ} (hτ : 0 < τ) (hs : 0 ≤ s) (h1 : Prim (n + 1) τ s L1)
    (h0 : s = 0 ∨ Prim n τ s L0) :
    Prim (n + 2) τ s (((n + 1 / 2) * L1 + s * L0) / τ) := by
  obtain ⟨A, hA, hA0, hA1⟩ := h1
  have key : ∃ B : ℝ → ℝ, (∀ t : ℝ, 0 < t → HasDerivAt (fun t => s * B t) (s * dW n τ s t) t) ∧
      Tendsto (fun t => s * B t) (𝓝[>] 0) (𝓝 0) ∧ Tendsto (fun t => s * B t) atTop (𝓝 (s * L0)) := by
    rcases h0 with rfl | ⟨B, hB, hB0, hB1⟩
    · refine ⟨0, fun t _ => ?_, ?_, ?_⟩
      · simpa using hasDerivAt_const t (0 : ℝ)
      · simp
      · simp
    · refine ⟨B, fun t ht => (hB t ht).const_mul s, ?_, hB1.const_mul s⟩
      simpa using hB0.const_mul s
  obtain ⟨B, hB, hB0, hB1⟩ := key
  refine ⟨fun t => (dW n τ s t + (n + 1 / 2) * A t + s * B t) / τ, ?_, ?_, ?_⟩
  · intro t ht
    refine ((((dW_hasDeriv n ht).add ((hA t ht).const_mul _)).add (hB t ht)).div_const
      τ).congr_deriv ?_
    field_simp
    ring
  · have := (((dW_zero n (s := s) hτ).add (hA0.const_mul ((n : ℝ) + 1 / 2))).add hB0).div_const τ
    simpa using this
  · have := (((dW_top n hτ hs).add (hA1.const_mul ((n : ℝ) + 1 / 2))).add hB1).div_const τ
    simpa using this

end Verif.Lemmas
