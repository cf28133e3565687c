import Verif.Model.Kernel
import Verif.Spec.Maxwell1D
import Mathlib.Analysis.SpecialFunctions.Pow.Real
import Mathlib.Analysis.Calculus.Deriv.MeanValue
import Mathlib.Analysis.SpecialFunctions.ExpDeriv
import Mathlib.Analysis.Calculus.Deriv.Star

/-! Helper lemmas: square roots, admittances, the energy argument inside one layer. -/

namespace Verif.Lemmas
open Verif.Spec Verif.Spec.Stack Verif.Kernel Complex

theorem passive_slit {e q : ℂ} (h : PassiveAt e q) : 0 < ‖e * q‖ + (e * q).re := by
  have hn : 0 ≤ ‖e * q‖ + (e * q).re := by
    have := Complex.abs_re_le_norm (e * q)
    have := neg_abs_le (e * q).re
    linarith
  rcases hn.lt_or_eq with h' | h'
  · exact h'
  exfalso
  -- then e*q is a non-positive real number
  have hre : (e * q).re = -‖e * q‖ := by linarith
  have hsq : (e * q).re ^ 2 + (e * q).im ^ 2 = ‖e * q‖ ^ 2 := by
    rw [Complex.sq_norm, Complex.normSq_apply]; ring
  have him : (e * q).im = 0 := by
    have : (e * q).im ^ 2 = 0 := by rw [hre] at hsq; nlinarith
    simpa using this
  have hre0 : (e * q).re ≤ 0 := by have := norm_nonneg (e * q); linarith
  have he0 := h.e_re
  have hq0 := h.q_re
  simp only [Complex.mul_re, Complex.mul_im] at him hre0
  have hac : 0 ≤ e.re * q.re := mul_nonneg he0 hq0
  have hbd : 0 ≤ e.im * q.im := by linarith
  have h1 : e.re * q.im ^ 2 + q.re * (e.im * q.im) = 0 := by
    have := congrArg (· * q.im) him
    simp only [zero_mul] at this; nlinarith
  have h2 : e.re * (e.im * q.im) + q.re * e.im ^ 2 = 0 := by
    have := congrArg (· * e.im) him
    simp only [zero_mul] at this; nlinarith
  have h1a : e.re * q.im ^ 2 = 0 := by
    have := mul_nonneg he0 (sq_nonneg q.im); have := mul_nonneg hq0 hbd; linarith
  have h2a : q.re * e.im ^ 2 = 0 := by
    have := mul_nonneg hq0 (sq_nonneg e.im); have := mul_nonneg he0 hbd; linarith
  rcases h.loss with hl | hl
  · have hd : q.im = 0 := by
      rcases mul_eq_zero.1 h1a with h | h
      · exact absurd h hl.ne'
      · simpa using h
    have hc : q.re = 0 := by
      have : e.re * q.re ≤ 0 := by rw [hd] at hre0; simpa using hre0
      have : e.re * q.re = 0 := le_antisymm this hac
      rcases mul_eq_zero.1 this with h | h
      · exact absurd h hl.ne'
      · exact h
    exact h.q_ne (Complex.ext hc hd)
  · have hd : e.im = 0 := by
      rcases mul_eq_zero.1 h2a with h | h
      · exact absurd h hl.ne'
      · simpa using h
    have hc : e.re = 0 := by
      have : e.re * q.re ≤ 0 := by rw [hd] at hre0; simpa using hre0
      have : e.re * q.re = 0 := le_antisymm this hac
      rcases mul_eq_zero.1 this with h | h
      · exact h
      · exact absurd h hl.ne'
    exact h.e_ne (Complex.ext hc hd)

theorem csqrt_sq (z : ℂ) : csqrt z * csqrt z = z := by
  unfold csqrt
  by_cases hz : z = 0
  · subst hz; simp
  · rw [← Complex.cpow_add _ _ hz]; norm_num

theorem csqrt_re_pos {z : ℂ} (h : 0 < ‖z‖ + z.re) : 0 < (csqrt z).re := by
  unfold csqrt
  rw [one_div, Complex.cpow_inv_two_re]
  apply Real.sqrt_pos.2; linarith

/-- Everything needed about one passive layer: `Γ` and the admittance `Y = Γ/e`. -/
structure LayerOK (e q Γ : ℂ) : Prop where
  pas : PassiveAt e q
  sq : Γ * Γ = e * q
  re : 0 < Γ.re

theorem LayerOK.of_csqrt {e q : ℂ} (h : PassiveAt e q) : LayerOK e q (csqrt (e * q)) :=
  ⟨h, csqrt_sq _, csqrt_re_pos (passive_slit h)⟩

theorem LayerOK.gam_ne {e q Γ : ℂ} (h : LayerOK e q Γ) : Γ ≠ 0 := by
  intro h0; have := h.re; rw [h0] at this; simp at this

theorem LayerOK.Y_re {e q Γ : ℂ} (h : LayerOK e q Γ) : 0 < (Γ / e).re := by
  set Y := Γ / e with hY
  have he := h.pas.e_ne
  have hΓ : Γ = e * Y := by rw [hY]; field_simp
  have hq : q = Γ * Y := by
    have := h.sq
    have : e * q = e * (Γ * Y) := by rw [← this]; nth_rewrite 1 [hΓ]; ring
    exact mul_left_cancel₀ he this
  have hYne : Y ≠ 0 := by rw [hY]; exact div_ne_zero h.gam_ne he
  have key : q.re + e.re * Complex.normSq Y = 2 * Y.re * Γ.re := by
    rw [hq, hΓ]
    simp only [Complex.mul_re, Complex.mul_im, Complex.normSq_apply]; ring
  have hpos : 0 < q.re + e.re * Complex.normSq Y := by
    have hn : 0 < Complex.normSq Y := Complex.normSq_pos.2 hYne
    have := h.pas.e_re; have := h.pas.q_re
    rcases h.pas.loss with hl | hl
    · have := mul_pos hl hn; linarith
    · have := mul_nonneg h.pas.e_re hn.le; linarith
  have hr := h.re
  by_contra hcon
  push Not at hcon
  have : Y.re * Γ.re ≤ 0 := mul_nonpos_of_nonpos_of_nonneg hcon hr.le
  nlinarith

/-- Relation between `q`, `Γ` and the admittance. -/
theorem LayerOK.q_eq {e q Γ : ℂ} (h : LayerOK e q Γ) : q = Γ * (Γ / e) := by
  have he := h.pas.e_ne
  field_simp
  linear_combination -h.sq

/-- `Adm Y t`: a downward (or upward) travelling wave with reflection factor `t` in a layer
of admittance `Y` carries energy away. -/
def Adm (Y t : ℂ) : Prop := 0 < ((starRingEnd ℂ) (1 + t) * (Y * (1 - t))).re

theorem Adm.one_add_ne {Y t : ℂ} (h : Adm Y t) : 1 + t ≠ 0 := by
  intro h0; unfold Adm at h; rw [h0] at h; simp at h

theorem adm_zero {Y : ℂ} (h : 0 < Y.re) : Adm Y 0 := by
  unfold Adm; simpa using h

/-- The admittance `Y (1-t)/(1+t)` has positive real part. -/
theorem Adm.Y_re {Y t : ℂ} (h : Adm Y t) : 0 < (Y * (1 - t) / (1 + t)).re := by
  have hne := h.one_add_ne
  have hn : 0 < Complex.normSq (1 + t) := Complex.normSq_pos.2 hne
  have : Y * (1 - t) / (1 + t) =
      ((starRingEnd ℂ) (1 + t) * (Y * (1 - t))) / ((Complex.normSq (1 + t) : ℝ) : ℂ) := by
    have hc : (starRingEnd ℂ) (1 + t) ≠ 0 := (map_ne_zero _).2 hne
    rw [Complex.normSq_eq_conj_mul_self, mul_div_mul_left _ _ hc]
  rw [this, Complex.div_ofReal_re]
  exact div_pos h hn

/-- The energy argument: `Adm` is preserved by propagation through a passive layer. -/
theorem Adm.prop {e q Γ t : ℂ} (hL : LayerOK e q Γ) (h : Adm (Γ / e) t) {d : ℝ} (hd : 0 ≤ d) :
    Adm (Γ / e) (t * Complex.exp (-(2 * Γ) * d)) := by
  set Y := Γ / e with hY
  have he := hL.pas.e_ne
  have hΓ : Γ = e * Y := by rw [hY]; field_simp
  have hq : q = Γ * Y := hL.q_eq
  let a : ℝ → ℂ := fun x => Complex.exp (Γ * x) + t * Complex.exp (-(Γ * x))
  let b : ℝ → ℂ := fun x => Y * (Complex.exp (Γ * x) - t * Complex.exp (-(Γ * x)))
  have hlin : ∀ x : ℝ, HasDerivAt (fun x : ℝ => Γ * (x : ℂ)) Γ x := fun x => by
    simpa using (Complex.ofRealCLM.hasDerivAt (x := x)).const_mul Γ
  have hE1 : ∀ x : ℝ, HasDerivAt (fun x : ℝ => Complex.exp (Γ * x)) (Complex.exp (Γ * x) * Γ) x :=
    fun x => (hlin x).cexp
  have hE2 : ∀ x : ℝ, HasDerivAt (fun x : ℝ => Complex.exp (-(Γ * x)))
      (Complex.exp (-(Γ * x)) * (-Γ)) x := fun x => (hlin x).neg.cexp
  have ha : ∀ x : ℝ, HasDerivAt a (e * b x) x := fun x => by
    have := (hE1 x).add ((hE2 x).const_mul t)
    refine this.congr_deriv ?_
    simp only [b]; rw [hΓ]; ring
  have hb : ∀ x : ℝ, HasDerivAt b (q * a x) x := fun x => by
    have := ((hE1 x).sub ((hE2 x).const_mul t)).const_mul Y
    refine this.congr_deriv ?_
    simp only [a]; rw [hq]; ring
  let F : ℝ → ℝ := fun x => ((starRingEnd ℂ) (a x) * b x).re
  have hF : ∀ x, HasDerivAt F (e.re * Complex.normSq (b x) + q.re * Complex.normSq (a x)) x := by
    intro x
    have h1 : HasDerivAt (fun x => (starRingEnd ℂ) (a x) * b x)
        ((starRingEnd ℂ) (e * b x) * b x + (starRingEnd ℂ) (a x) * (q * a x)) x :=
      ((ha x).star).mul (hb x)
    have h2 := Complex.reCLM.hasFDerivAt.comp_hasDerivAt x h1
    refine h2.congr_deriv ?_
    simp only [Complex.reCLM_apply, map_mul, Complex.add_re, Complex.mul_re, Complex.mul_im,
      Complex.conj_re, Complex.conj_im, Complex.normSq_apply]
    ring
  have hmono : Monotone F := by
    apply monotone_of_deriv_nonneg (fun x => (hF x).differentiableAt)
    intro x
    rw [(hF x).deriv]
    exact add_nonneg (mul_nonneg hL.pas.e_re (Complex.normSq_nonneg _))
      (mul_nonneg hL.pas.q_re (Complex.normSq_nonneg _))
  have h0 : 0 < F 0 := by
    have : F 0 = ((starRingEnd ℂ) (1 + t) * (Y * (1 - t))).re := by simp [F, a, b]
    rw [this]; exact h
  have hFd : 0 < F d := lt_of_lt_of_le h0 (hmono hd)
  have hexp : Complex.exp (-(Γ * d)) = Complex.exp (Γ * d) * Complex.exp (-(2 * Γ) * d) := by
    rw [← Complex.exp_add]; congr 1; ring
  have hfac : F d = Complex.normSq (Complex.exp (Γ * d)) *
      ((starRingEnd ℂ) (1 + t * Complex.exp (-(2 * Γ) * d)) *
        (Y * (1 - t * Complex.exp (-(2 * Γ) * d)))).re := by
    rw [← Complex.re_ofReal_mul, Complex.normSq_eq_conj_mul_self]
    simp only [F, a, b, hexp]
    congr 1
    simp only [map_add, map_mul, map_one]
    ring
  rw [hfac] at hFd
  have hn : 0 < Complex.normSq (Complex.exp (Γ * d)) :=
    Complex.normSq_pos.2 (Complex.exp_ne_zero _)
  exact (pos_iff_pos_of_mul_pos hFd).1 hn

/-- Crossing an interface: the reflection recursion preserves `Adm`, its denominator does
not vanish, and it matches the two admittances. -/
theorem Adm.cross {Y₁ Y₂ t : ℂ} (h1 : 0 < Y₁.re) (h2 : 0 < Y₂.re) (ht : Adm Y₂ t) :
    Y₁ + Y₂ ≠ 0 ∧ 1 + (Y₁ - Y₂) / (Y₁ + Y₂) * t ≠ 0 ∧
    Adm Y₁ (((Y₁ - Y₂) / (Y₁ + Y₂) + t) / (1 + (Y₁ - Y₂) / (Y₁ + Y₂) * t)) ∧
    (1 + ((Y₁ - Y₂) / (Y₁ + Y₂) + t) / (1 + (Y₁ - Y₂) / (Y₁ + Y₂) * t)) * (Y₂ * (1 - t)) =
    Y₁ * (1 - ((Y₁ - Y₂) / (Y₁ + Y₂) + t) / (1 + (Y₁ - Y₂) / (Y₁ + Y₂) * t)) * (1 + t) := by
  have hs : Y₁ + Y₂ ≠ 0 := by
    intro h; have := congrArg Complex.re h; simp at this; linarith
  have hne := ht.one_add_ne
  have hden : Y₁ * (1 + t) + Y₂ * (1 - t) ≠ 0 := by
    intro h
    have hY := ht.Y_re
    have : Y₁ + Y₂ * (1 - t) / (1 + t) = 0 := by field_simp; linear_combination h
    have := congrArg Complex.re this
    rw [Complex.add_re] at this
    simp only [Complex.zero_re] at this
    linarith
  have hd2 : 1 + (Y₁ - Y₂) / (Y₁ + Y₂) * t ≠ 0 := by
    have : 1 + (Y₁ - Y₂) / (Y₁ + Y₂) * t = (Y₁ * (1 + t) + Y₂ * (1 - t)) / (Y₁ + Y₂) := by
      field_simp; ring
    rw [this]; exact div_ne_zero hden hs
  set R := ((Y₁ - Y₂) / (Y₁ + Y₂) + t) / (1 + (Y₁ - Y₂) / (Y₁ + Y₂) * t) with hR
  have hden' : Y₁ + Y₂ + (Y₁ - Y₂) * t ≠ 0 := by
    intro h; apply hden; linear_combination h
  have hR' : R = (Y₁ * (1 + t) - Y₂ * (1 - t)) / (Y₁ * (1 + t) + Y₂ * (1 - t)) := by
    rw [hR, div_eq_div_iff hd2 hden]; field_simp; ring
  have hp : 1 + R = 2 * Y₁ / (Y₁ * (1 + t) + Y₂ * (1 - t)) * (1 + t) := by
    rw [hR']; field_simp; ring
  have hm : Y₁ * (1 - R) = 2 * Y₁ / (Y₁ * (1 + t) + Y₂ * (1 - t)) * (Y₂ * (1 - t)) := by
    rw [hR']; field_simp; ring
  refine ⟨hs, hd2, ?_, ?_⟩
  · unfold Adm
    rw [hp, hm]
    set c := 2 * Y₁ / (Y₁ * (1 + t) + Y₂ * (1 - t)) with hc
    have hcne : c ≠ 0 := by
      rw [hc]; apply div_ne_zero _ hden
      intro h; have := congrArg Complex.re h; simp at this; linarith
    have : (starRingEnd ℂ) (c * (1 + t)) * (c * (Y₂ * (1 - t))) =
        ((Complex.normSq c : ℝ) : ℂ) * ((starRingEnd ℂ) (1 + t) * (Y₂ * (1 - t))) := by
      rw [Complex.normSq_eq_conj_mul_self, map_mul]; ring
    rw [this, Complex.re_ofReal_mul]
    exact mul_pos (Complex.normSq_pos.2 hcne) ht
  · rw [hm, hp]; ring

/-- Two passive sides facing each other: `1 - R₁ R₂ e^{-2Γd}` does not vanish. -/
theorem adm_pair {Y t u : ℂ} (ht : Adm Y t) (hu : Adm Y u) : 1 - t * u ≠ 0 := by
  intro h
  have h1 := ht.Y_re
  have h2 := hu.Y_re
  have a := ht.one_add_ne
  have b := hu.one_add_ne
  have : Y * (1 - t) / (1 + t) + Y * (1 - u) / (1 + u) = 0 := by
    field_simp
    linear_combination (2 * Y) * h
  have := congrArg Complex.re this
  rw [Complex.add_re] at this
  simp only [Complex.zero_re] at this
  linarith

end Verif.Lemmas
