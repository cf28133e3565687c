import Verif.Lemmas.Explicit
import Mathlib.Analysis.Asymptotics.Lemmas
import Mathlib.MeasureTheory.Integral.IntegralEqImproper
import Mathlib.MeasureTheory.Integral.ExpDecay
import Mathlib.Analysis.SpecialFunctions.Pow.Asymptotics

/-!
# Functions of wavenumber that converge, and functions that decay exponentially
-/

namespace Verif.Lemmas
open Verif.Spec Verif.Kernel Complex Filter Topology Set Asymptotics MeasureTheory

/-- Continuous for non-negative wavenumbers, with a limit. -/
structure Nice (f : ℝ → ℂ) (L : ℂ) : Prop where
  cont : ContinuousOn f (Ici 0)
  lim : Tendsto f atTop (𝓝 L)

/-- Continuous for non-negative wavenumbers, exponentially small for large ones. -/
structure Small (f : ℝ → ℂ) : Prop where
  cont : ContinuousOn f (Ici 0)
  decay : ∃ c : ℝ, 0 < c ∧ f =O[atTop] fun l => Real.exp (-c * l)

variable {f f' : ℝ → ℂ} {L L' : ℂ}

theorem Nice.congr (h : Nice f L) (e : ∀ l, 0 ≤ l → f' l = f l) : Nice f' L :=
  ⟨h.cont.congr fun l hl => e l hl, h.lim.congr' (by
    filter_upwards [eventually_ge_atTop 0] with l hl using (e l hl).symm)⟩

theorem Nice.const (c : ℂ) : Nice (fun _ => c) c := ⟨continuousOn_const, tendsto_const_nhds⟩

theorem Nice.add (h : Nice f L) (h' : Nice f' L') : Nice (fun l => f l + f' l) (L + L') :=
  ⟨h.cont.add h'.cont, h.lim.add h'.lim⟩

theorem Nice.sub (h : Nice f L) (h' : Nice f' L') : Nice (fun l => f l - f' l) (L - L') :=
  ⟨h.cont.sub h'.cont, h.lim.sub h'.lim⟩

theorem Nice.mul (h : Nice f L) (h' : Nice f' L') : Nice (fun l => f l * f' l) (L * L') :=
  ⟨h.cont.mul h'.cont, h.lim.mul h'.lim⟩

theorem Nice.div (h : Nice f L) (h' : Nice f' L') (h0 : ∀ l, 0 ≤ l → f' l ≠ 0) (hL : L' ≠ 0) :
    Nice (fun l => f l / f' l) (L / L') :=
  ⟨h.cont.div h'.cont h0, h.lim.div h'.lim hL⟩

theorem Small.congr (h : Small f) (e : ∀ l, 0 ≤ l → f' l = f l) : Small f' := by
  obtain ⟨c, hc, hO⟩ := h.decay
  refine ⟨h.cont.congr fun l hl => e l hl, c, hc, hO.congr' ?_ (EventuallyEq.refl _ _)⟩
  filter_upwards [eventually_ge_atTop 0] with l hl using (e l hl).symm

theorem Small.zero : Small fun _ => 0 := ⟨continuousOn_const, 1, one_pos, isBigO_zero _ _⟩

theorem exp_le {c c' : ℝ} (h : c ≤ c') :
    (fun l : ℝ => Real.exp (-c' * l)) =O[atTop] fun l => Real.exp (-c * l) := by
  refine IsBigO.of_bound 1 ?_
  filter_upwards [eventually_ge_atTop 0] with l hl
  rw [one_mul, Real.norm_eq_abs, Real.norm_eq_abs, abs_of_pos (Real.exp_pos _), abs_of_pos (Real.exp_pos _)]
  exact Real.exp_le_exp.2 (by nlinarith)

theorem Small.add (h : Small f) (h' : Small f') : Small fun l => f l + f' l := by
  obtain ⟨c, hc, hO⟩ := h.decay
  obtain ⟨c', hc', hO'⟩ := h'.decay
  exact ⟨h.cont.add h'.cont, min c c', lt_min hc hc',
    (hO.trans (exp_le (min_le_left _ _))).add (hO'.trans (exp_le (min_le_right _ _)))⟩

theorem Nice.mul_small (h : Nice f L) (h' : Small f') : Small fun l => f l * f' l := by
  obtain ⟨c, hc, hO⟩ := h'.decay
  refine ⟨h.cont.mul h'.cont, c, hc, ?_⟩
  have := (h.lim.isBigO_one ℝ).mul hO
  simpa using this

theorem Small.mul_nice (h : Small f) (h' : Nice f' L') : Small fun l => f l * f' l :=
  (h'.mul_small h).congr fun l _ => mul_comm _ _

theorem Small.smul (h : Small f) (c : ℂ) : Small fun l => c * f l := (Nice.const c).mul_small h

/-- Powers of the wavenumber do not matter. -/
theorem Small.lam (h : Small f) : Small fun l => (l : ℂ) * f l := by
  obtain ⟨c, hc, hO⟩ := h.decay
  refine ⟨Complex.continuous_ofReal.continuousOn.mul h.cont, c / 2, by positivity, ?_⟩
  have h1 : (fun l : ℝ => (l : ℂ)) =O[atTop] fun l => Real.exp (c / 2 * l) := by
    refine IsBigO.of_bound (2 / c) ?_
    filter_upwards [eventually_ge_atTop 0] with l hl
    rw [Complex.norm_real, Real.norm_eq_abs, Real.norm_eq_abs, abs_of_nonneg hl, abs_of_pos (Real.exp_pos _)]
    have := Real.add_one_le_exp (c / 2 * l)
    rw [div_mul_eq_mul_div, le_div_iff₀ hc]
    nlinarith
  refine (h1.mul hO).congr (fun _ => rfl) fun l => ?_
  rw [← Real.exp_add]; congr 1; ring

theorem Small.pow (h : Small f) (k : ℕ) : Small fun l => (l : ℂ) ^ k * f l := by
  induction k with
  | zero => simpa using h
  | succ k ih => exact ih.lam.congr fun l _ => by ring

theorem Small.nice (h : Small f) : Nice f 0 := by
  obtain ⟨c, hc, hO⟩ := h.decay
  refine ⟨h.cont, hO.trans_tendsto ?_⟩
  have : Tendsto (fun l : ℝ => c * l) atTop atTop := tendsto_id.const_mul_atTop hc
  refine (Real.tendsto_exp_neg_atTop_nhds_zero.comp this).congr fun l => ?_
  simp

theorem Small.int (h : Small f) : IntegrableOn f (Ioi 0) := by
  obtain ⟨c, hc, hO⟩ := h.decay
  refine (integrable_norm_iff ((h.cont.mono Ioi_subset_Ici_self).aestronglyMeasurable measurableSet_Ioi)).1 ?_
  exact integrable_of_isBigO_exp_neg hc h.cont.norm hO.norm_left

/-- Multiplied by a bounded continuous function. -/
theorem Small.bdd (h : Small f) (hc : Continuous f') (hb : ∀ l, ‖f' l‖ ≤ 1) : Small fun l => f' l * f l := by
  obtain ⟨c, h0, hO⟩ := h.decay
  refine ⟨hc.continuousOn.mul h.cont, c, h0, ?_⟩
  have : f' =O[atTop] fun _ => (1 : ℝ) := IsBigO.of_bound 1 (by
    filter_upwards with l
    simpa using hb l)
  simpa using this.mul hO

/-- Exponential of something that grows like the wavenumber. -/
theorem exp_small {g : ℝ → ℂ} {γ : ℂ} (h : Nice (fun l => g l / ((l : ℂ) + 1)) γ) (hγ : 0 < γ.re) {d : ℝ}
    (hd : 0 < d) : Small fun l => Complex.exp (-g l * d) := by
  have hl1 : ∀ l : ℝ, 0 ≤ l → (l : ℂ) + 1 ≠ 0 := fun l hl e => by
    have := congrArg Complex.re e
    simp at this; linarith
  have hg : ContinuousOn g (Ici 0) := by
    have : ContinuousOn (fun l : ℝ => g l / ((l : ℂ) + 1) * ((l : ℂ) + 1)) (Ici 0) :=
      h.cont.mul (by fun_prop)
    exact this.congr fun l hl => (div_mul_cancel₀ _ (hl1 l hl)).symm
  refine ⟨(hg.neg.mul continuousOn_const).cexp, γ.re / 2 * d, by positivity, IsBigO.of_bound 1 ?_⟩
  have hre : Tendsto (fun l => (g l / ((l : ℂ) + 1)).re) atTop (𝓝 γ.re) :=
    (Complex.continuous_re.tendsto _).comp h.lim
  filter_upwards [hre.eventually (lt_mem_nhds (show γ.re / 2 < γ.re by linarith)), eventually_ge_atTop 0]
    with l hl h0
  rw [one_mul, Complex.norm_exp, Real.norm_eq_abs, abs_of_pos (Real.exp_pos _)]
  apply Real.exp_le_exp.2
  have e : (g l).re = (g l / ((l : ℂ) + 1)).re * (l + 1) := by
    have : g l = (((l + 1 : ℝ)) : ℂ) * (g l / ((l : ℂ) + 1)) := by
      push_cast; rw [mul_comm, div_mul_cancel₀ _ (hl1 l h0)]
    conv_lhs => rw [this]
    rw [Complex.re_ofReal_mul]; ring
  have e2 : (-g l * (d : ℂ)).re = -((g l).re * d) := by simp
  rw [e2, e]
  have : γ.re / 2 * l ≤ (g l / ((l : ℂ) + 1)).re * (l + 1) := by nlinarith
  nlinarith

end Verif.Lemmas
