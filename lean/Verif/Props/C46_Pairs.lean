import Verif.Model.Pairs
import Verif.Lemmas.ExpHankel
import Verif.Lemmas.DirectSomm
import Mathlib.Analysis.SpecialFunctions.Gaussian.FourierTransform
import Mathlib.Analysis.Real.Pi.Bounds

/-!
# C46: the transform pairs of the filter design are transform pairs
-/

namespace Verif.Props
open Verif.Spec Verif.Fdesign Verif.Kernel Verif.Fullspace Verif.Lemmas MeasureTheory Set Filter Topology

/-! ## Statement -/

/-- The kernel of the transform with a given name. -/
noncomputable def pairKernel (name : List Char) : Option (ℝ → ℂ) :=
  if name = "j0".toList then some besselJ0
  else if name = "j1".toList then some besselJ1
  else if name = "sin".toList then some fun x => (Real.sin x : ℝ)
  else if name = "cos".toList then some fun x => (Real.cos x : ℝ)
  else none

/-- `∫₀^∞ lhs(x) K(x b) dx = v`, as a limit of integrals over finite intervals. -/
def PairInt (K lhs : ℝ → ℂ) (b : ℝ) (v : ℂ) : Prop :=
  (∀ L ≥ 0, IntervalIntegrable (fun x => lhs x * K (x * b)) volume 0 L) ∧
  Tendsto (fun L : ℝ => ∫ x in (0 : ℝ)..L, lhs x * K (x * b)) atTop (𝓝 v)

/-- The pair `P` is a pair of the transform with its name, up to a factor `c`: for every `b > 0` the transform of
`lhs` is `c rhs`. -/
def IsPair (c : ℂ) (P : Pair) : Prop :=
  ∃ K rhs, pairKernel P.name = some K ∧ P.rhs = .fn rhs ∧ ∀ b > 0, PairInt K P.lhs b (c * rhs b)

/-! ## Tools -/

theorem PairInt.of_int {K lhs : ℝ → ℂ} {b : ℝ} {v : ℂ} (h : HasInt (fun x => lhs x * K (x * b)) v) :
    PairInt K lhs b v := by
  refine ⟨fun L hL => ?_, ?_⟩
  · rw [intervalIntegrable_iff_integrableOn_Ioc_of_le hL]
    exact h.1.mono_set Ioc_subset_Ioi_self
  · have := intervalIntegral_tendsto_integral_Ioi 0 h.1 tendsto_id
    rwa [h.2] at this

theorem PairInt.smul {K lhs lhs' : ℝ → ℂ} {b : ℝ} {v v' : ℂ} (c : ℂ) (h : PairInt K lhs b v)
    (e : ∀ x, lhs' x = c * lhs x) (hv : v' = c * v) : PairInt K lhs' b v' := by
  have e' : (fun x => lhs' x * K (x * b)) = fun x => c * (lhs x * K (x * b)) := by
    funext x; rw [e]; ring
  refine ⟨fun L hL => ?_, ?_⟩
  · rw [e']; exact (h.1 L hL).const_mul c
  · simp only [e', hv]
    simp only [intervalIntegral.integral_const_mul]
    exact h.2.const_mul c

theorem PairInt.unique {K lhs : ℝ → ℂ} {b : ℝ} {v w : ℂ} (h : PairInt K lhs b v) (h' : PairInt K lhs b w) :
    v = w := tendsto_nhds_unique h.2 h'.2

theorem kernel_j0 : pairKernel "j0".toList = some besselJ0 := by simp [pairKernel]
theorem kernel_j1 : pairKernel "j1".toList = some besselJ1 := by
  have : ("j1".toList = "j0".toList) = False := by simp
  simp [pairKernel]
theorem kernel_sin : pairKernel "sin".toList = some fun x => ((Real.sin x : ℝ) : ℂ) := by simp [pairKernel]
theorem kernel_cos : pairKernel "cos".toList = some fun x => ((Real.cos x : ℝ) : ℂ) := by simp [pairKernel]

/-! ## Sine and cosine against an exponential and a Gaussian -/

/-- `∫ exp(-cx) = 1/c` -/
theorem exp_hasInt {c : ℂ} (hc : 0 < c.re) : HasInt (fun x : ℝ => Complex.exp (-c * x)) (1 / c) := by
  have h0 : c ≠ 0 := fun e => by rw [e] at hc; simp at hc
  refine ⟨integrableOn_exp_mul_complex_Ioi (by simpa using hc) 0, ?_⟩
  rw [integral_exp_mul_complex_Ioi (by simpa using hc)]
  simp

/-- `∫ x exp(-cx) = 1/c²` -/
theorem xexp_hasInt {c : ℂ} (hc : 0 < c.re) : HasInt (fun x : ℝ => (x : ℂ) * Complex.exp (-c * x)) (1 / c ^ 2) := by
  have h0 : c ≠ 0 := fun e => by rw [e] at hc; simp at hc
  have hi : IntegrableOn (fun x : ℝ => (x : ℂ) * Complex.exp (-c * x)) (Ioi 0) := by
    refine (pow_exp_int hc 1).mono' (Continuous.aestronglyMeasurable (by fun_prop)) ?_
    refine (ae_restrict_mem measurableSet_Ioi).mono fun x hx => ?_
    rw [norm_mul, Complex.norm_exp, Complex.norm_real, Real.norm_of_nonneg (le_of_lt hx)]
    simp
  have h1 := exp_hasInt hc
  refine ⟨hi, ?_⟩
  have hd : ∀ x ∈ Ioi (0 : ℝ), HasDerivAt (fun x : ℝ => (x : ℂ) * Complex.exp (-c * x))
      (Complex.exp (-c * x) - c * ((x : ℂ) * Complex.exp (-c * x))) x := by
    intro x _
    have hid : HasDerivAt (fun l : ℝ => (l : ℂ)) 1 x := (hasDerivAt_id x).ofReal_comp
    refine (hid.mul (hid.const_mul (-c)).cexp).congr_deriv ?_
    ring
  have hi' : IntegrableOn (fun x : ℝ => Complex.exp (-c * x) - c * ((x : ℂ) * Complex.exp (-c * x))) (Ioi 0) :=
    h1.1.sub (hi.const_mul c)
  have ht := tendsto_zero_of_hasDerivAt_of_integrableOn_Ioi hd hi' hi
  have hw : ContinuousWithinAt (fun x : ℝ => (x : ℂ) * Complex.exp (-c * x)) (Ici 0) 0 :=
    Continuous.continuousWithinAt (by fun_prop)
  have := integral_Ioi_of_hasDerivAt_of_tendsto hw hd hi' ht
  rw [integral_sub h1.1 (hi.const_mul c), integral_const_mul, h1.2] at this
  generalize (∫ x in Ioi (0 : ℝ), (x : ℂ) * Complex.exp (-c * x)) = V at *
  simp at this
  field_simp
  field_simp at this
  linear_combination -this

theorem cos_exp (b x : ℝ) : ((Real.cos (x * b) : ℝ) : ℂ) =
    (Complex.exp (Complex.I * b * x) + Complex.exp (-(Complex.I * b) * x)) / 2 := by
  rw [Complex.ofReal_cos, Complex.cos]
  push_cast
  ring_nf

theorem sin_exp (b x : ℝ) : ((Real.sin (x * b) : ℝ) : ℂ) =
    (Complex.exp (-(Complex.I * b) * x) - Complex.exp (Complex.I * b * x)) * Complex.I / 2 := by
  rw [Complex.ofReal_sin, Complex.sin]
  push_cast
  ring_nf

section
variable {a : ℝ} (ha : 0 < a) (b : ℝ)

theorem frac_cos {p q : ℂ} (hp : p ≠ 0) (hq : q ≠ 0) : 1 / 2 * (1 / p + 1 / q) = (p + q) / 2 / (p * q) := by
  field_simp; ring
theorem frac_sin {p q : ℂ} (hp : p ≠ 0) (hq : q ≠ 0) (c : ℂ) :
    c / 2 * (1 / q + -1 * (1 / p)) = c * (p - q) / 2 / (p * q) := by
  field_simp; ring
theorem frac_cos2 {p q : ℂ} (hp : p ≠ 0) (hq : q ≠ 0) :
    1 / 2 * (1 / p ^ 2 + 1 / q ^ 2) = (p ^ 2 + q ^ 2) / 2 / (p * q) ^ 2 := by
  field_simp; ring
theorem ab_mul : (b : ℂ) ^ 2 + (a : ℂ) ^ 2 = (a - Complex.I * b) * (a + Complex.I * b) := by
  linear_combination (b : ℂ) ^ 2 * Complex.I_sq

include ha

theorem ab_ne : (a : ℂ) - Complex.I * b ≠ 0 ∧ (a : ℂ) + Complex.I * b ≠ 0 ∧ (b : ℂ) ^ 2 + (a : ℂ) ^ 2 ≠ 0 := by
  have h1 : (a : ℂ) - Complex.I * b ≠ 0 := fun e => by
    have := congrArg Complex.re e; simp at this; linarith
  have h2 : (a : ℂ) + Complex.I * b ≠ 0 := fun e => by
    have := congrArg Complex.re e; simp at this; linarith
  refine ⟨h1, h2, ?_⟩
  have : (b : ℂ) ^ 2 + (a : ℂ) ^ 2 = (a - Complex.I * b) * (a + Complex.I * b) := by
    linear_combination (b : ℂ) ^ 2 * Complex.I_sq
  rw [this]; exact mul_ne_zero h1 h2

theorem cos2_int : HasInt (fun x : ℝ => ((Real.exp (-a * x) : ℝ) : ℂ) * (Real.cos (x * b) : ℝ))
    (a / (b ^ 2 + a ^ 2)) := by
  obtain ⟨n1, n2, n3⟩ := ab_ne ha b
  have h1 := exp_hasInt (c := (a : ℂ) - Complex.I * b) (by simpa using ha)
  have h2 := exp_hasInt (c := (a : ℂ) + Complex.I * b) (by simpa using ha)
  refine ((h1.add h2).smul (1 / 2)).congr (fun x _ => ?_) ?_
  · rw [cos_exp, show -(a - Complex.I * b) * (x : ℂ) = -a * x + Complex.I * b * x by ring,
      show -(a + Complex.I * b) * (x : ℂ) = -a * x + -(Complex.I * b) * x by ring, Complex.exp_add, Complex.exp_add]
    push_cast; ring
  · rw [frac_cos n1 n2, ← ab_mul]; ring

theorem sin2_int : HasInt (fun x : ℝ => ((Real.exp (-a * x) : ℝ) : ℂ) * (Real.sin (x * b) : ℝ))
    (b / (b ^ 2 + a ^ 2)) := by
  obtain ⟨n1, n2, n3⟩ := ab_ne ha b
  have h1 := exp_hasInt (c := (a : ℂ) - Complex.I * b) (by simpa using ha)
  have h2 := exp_hasInt (c := (a : ℂ) + Complex.I * b) (by simpa using ha)
  refine ((h2.add (h1.smul (-1))).smul (Complex.I / 2)).congr (fun x _ => ?_) ?_
  · rw [sin_exp, show -(a - Complex.I * b) * (x : ℂ) = -a * x + Complex.I * b * x by ring,
      show -(a + Complex.I * b) * (x : ℂ) = -a * x + -(Complex.I * b) * x by ring, Complex.exp_add, Complex.exp_add]
    push_cast; ring
  · rw [frac_sin n1 n2, ← ab_mul]
    congr 1
    linear_combination (b : ℂ) * Complex.I_sq

theorem xcos_int : HasInt (fun x : ℝ => ((x * Real.exp (-a * x) : ℝ) : ℂ) * (Real.cos (x * b) : ℝ))
    ((a ^ 2 - b ^ 2) / (b ^ 2 + a ^ 2) ^ 2) := by
  obtain ⟨n1, n2, n3⟩ := ab_ne ha b
  have h1 := xexp_hasInt (c := (a : ℂ) - Complex.I * b) (by simpa using ha)
  have h2 := xexp_hasInt (c := (a : ℂ) + Complex.I * b) (by simpa using ha)
  refine ((h1.add h2).smul (1 / 2)).congr (fun x _ => ?_) ?_
  · rw [cos_exp, show -(a - Complex.I * b) * (x : ℂ) = -a * x + Complex.I * b * x by ring,
      show -(a + Complex.I * b) * (x : ℂ) = -a * x + -(Complex.I * b) * x by ring, Complex.exp_add, Complex.exp_add]
    push_cast; ring
  · rw [frac_cos2 n1 n2, ← ab_mul]
    congr 1
    linear_combination (-(b : ℂ) ^ 2) * Complex.I_sq

theorem cos1_int : HasInt (fun x : ℝ => ((Real.exp (-a ^ 2 * x ^ 2) : ℝ) : ℂ) * (Real.cos (x * b) : ℝ))
    (Real.sqrt Real.pi * Real.exp (-b ^ 2 / (4 * a ^ 2)) / (2 * a) : ℝ) := by
  have ha2 : 0 < ((a : ℂ) ^ 2).re := by rw [← Complex.ofReal_pow, Complex.ofReal_re]; positivity
  have hi : Integrable fun x : ℝ => Complex.exp (Complex.I * b * x) * Complex.exp (-(a : ℂ) ^ 2 * x ^ 2) := by
    have := integrable_cexp_quadratic ha2 (Complex.I * b) 0
    refine this.congr (Eventually.of_forall fun x => ?_)
    beta_reduce
    rw [← Complex.exp_add]; ring_nf
  have h := fourierIntegral_gaussian ha2 b
  rw [half_line hi] at h
  have e : ∀ x : ℝ, Complex.exp (Complex.I * b * x) * Complex.exp (-(a : ℂ) ^ 2 * x ^ 2) +
      Complex.exp (Complex.I * b * ((-x : ℝ) : ℂ)) * Complex.exp (-(a : ℂ) ^ 2 * ((-x : ℝ) : ℂ) ^ 2) =
      2 * (((Real.exp (-a ^ 2 * x ^ 2) : ℝ) : ℂ) * (Real.cos (x * b) : ℝ)) := by
    intro x
    rw [cos_exp]
    push_cast
    ring_nf
  have hI : IntegrableOn (fun x : ℝ => ((Real.exp (-a ^ 2 * x ^ 2) : ℝ) : ℂ) * (Real.cos (x * b) : ℝ)) (Ioi 0) := by
    have := ((hi.add hi.comp_neg).integrableOn (s := Ioi 0)).const_mul (1 / 2)
    refine this.congr (Eventually.of_forall fun x => ?_)
    have := e x
    simp only [Pi.add_apply]
    rw [this]; ring
  refine ⟨hI, ?_⟩
  simp only [e] at h
  rw [integral_const_mul] at h
  have hr : ((Real.pi : ℂ) / (a : ℂ) ^ 2) ^ (1 / 2 : ℂ) = ((Real.sqrt Real.pi / a : ℝ) : ℂ) := by
    have h1 : ((Real.pi : ℂ) / (a : ℂ) ^ 2) = ((Real.pi / a ^ 2 : ℝ) : ℂ) := by push_cast; rfl
    have h2 : (1 / 2 : ℂ) = ((1 / 2 : ℝ) : ℂ) := by push_cast; rfl
    rw [h1, h2, ← Complex.ofReal_cpow (by positivity), ← Real.sqrt_eq_rpow, Real.sqrt_div Real.pi_pos.le,
      Real.sqrt_sq ha.le]
  rw [hr] at h
  have ha' : (a : ℂ) ≠ 0 := by exact_mod_cast ha.ne'
  generalize (∫ x in Ioi (0 : ℝ), ((Real.exp (-a ^ 2 * x ^ 2) : ℝ) : ℂ) * (Real.cos (x * b) : ℝ)) = V at *
  push_cast at h ⊢
  field_simp at h ⊢
  linear_combination h

theorem gauss_real (k : ℕ) : IntegrableOn (fun x : ℝ => x ^ k * Real.exp (-a ^ 2 * x ^ 2)) (Ioi 0) :=
  gau_pow_int (by positivity : 0 < a ^ 2) k

theorem sin1_int : HasInt (fun x : ℝ => ((x * Real.exp (-a ^ 2 * x ^ 2) : ℝ) : ℂ) * (Real.sin (x * b) : ℝ))
    (Real.sqrt Real.pi * b * Real.exp (-b ^ 2 / (4 * a ^ 2)) / (4 * a ^ 3) : ℝ) := by
  have hc := cos1_int ha b
  have ha' : (a : ℂ) ≠ 0 := by exact_mod_cast ha.ne'
  have i1 : IntegrableOn (fun x : ℝ => ((x * Real.exp (-a ^ 2 * x ^ 2) : ℝ) : ℂ) * (Real.sin (x * b) : ℝ))
      (Ioi 0) := by
    refine (gauss_real ha 1).mono' (Continuous.aestronglyMeasurable (by fun_prop)) ?_
    refine (ae_restrict_mem measurableSet_Ioi).mono fun x hx => ?_
    rw [norm_mul, Complex.norm_real, Complex.norm_real, Real.norm_of_nonneg (mul_nonneg (le_of_lt hx)
      (Real.exp_pos _).le), pow_one]
    exact mul_le_of_le_one_right (mul_nonneg (le_of_lt hx) (Real.exp_pos _).le) (Real.abs_sin_le_one _)
  have i0 : IntegrableOn (fun x : ℝ => ((Real.exp (-a ^ 2 * x ^ 2) : ℝ) : ℂ) * (Real.sin (x * b) : ℝ)) (Ioi 0) := by
    refine (gauss_real ha 0).mono' (Continuous.aestronglyMeasurable (by fun_prop)) ?_
    refine (ae_restrict_mem measurableSet_Ioi).mono fun x hx => ?_
    rw [norm_mul, Complex.norm_real, Complex.norm_real, Real.norm_of_nonneg (Real.exp_pos _).le, pow_zero, one_mul]
    exact mul_le_of_le_one_right (Real.exp_pos _).le (Real.abs_sin_le_one _)
  have hd : ∀ x ∈ Ioi (0 : ℝ), HasDerivAt (fun x : ℝ => ((Real.exp (-a ^ 2 * x ^ 2) : ℝ) : ℂ) * (Real.sin (x * b) : ℝ))
      (b * (((Real.exp (-a ^ 2 * x ^ 2) : ℝ) : ℂ) * (Real.cos (x * b) : ℝ)) -
        2 * a ^ 2 * (((x * Real.exp (-a ^ 2 * x ^ 2) : ℝ) : ℂ) * (Real.sin (x * b) : ℝ))) x := by
    intro x _
    have h1 : HasDerivAt (fun x : ℝ => -a ^ 2 * x ^ 2) (-a ^ 2 * (2 * x)) x := by
      simpa using ((hasDerivAt_id x).pow 2).const_mul (-a ^ 2)
    have h2 : HasDerivAt (fun x : ℝ => x * b) b x := by simpa using (hasDerivAt_id x).mul_const b
    refine (h1.exp.ofReal_comp.mul h2.sin.ofReal_comp).congr_deriv ?_
    push_cast; ring
  have hi' : IntegrableOn (fun x : ℝ => b * (((Real.exp (-a ^ 2 * x ^ 2) : ℝ) : ℂ) * (Real.cos (x * b) : ℝ)) -
        2 * a ^ 2 * (((x * Real.exp (-a ^ 2 * x ^ 2) : ℝ) : ℂ) * (Real.sin (x * b) : ℝ))) (Ioi 0) :=
    (hc.1.const_mul _).sub (i1.const_mul _)
  have ht := tendsto_zero_of_hasDerivAt_of_integrableOn_Ioi hd hi' i0
  have hw : ContinuousWithinAt (fun x : ℝ => ((Real.exp (-a ^ 2 * x ^ 2) : ℝ) : ℂ) * (Real.sin (x * b) : ℝ))
      (Ici 0) 0 := Continuous.continuousWithinAt (by fun_prop)
  have := integral_Ioi_of_hasDerivAt_of_tendsto hw hd hi' ht
  rw [integral_sub (hc.1.const_mul _) (i1.const_mul _), integral_const_mul, integral_const_mul, hc.2] at this
  refine ⟨i1, ?_⟩
  generalize (∫ x in Ioi (0 : ℝ), ((x * Real.exp (-a ^ 2 * x ^ 2) : ℝ) : ℂ) * (Real.sin (x * b) : ℝ)) = V at *
  rw [zero_mul, Real.sin_zero, Complex.ofReal_zero, mul_zero, sub_zero] at this
  push_cast at this ⊢
  field_simp at this ⊢
  linear_combination -this

/-! ## Rational functions -/

theorem rat_int : IntegrableOn (fun x : ℝ => 1 / (a ^ 2 + x ^ 2)) (Ioi 0) := by
  have h := (integrable_inv_one_add_sq.integrableOn (s := Ioi (0 : ℝ))).const_mul (1 + 1 / a ^ 2)
  refine h.mono' (Continuous.aestronglyMeasurable ?_) (Eventually.of_forall fun x => ?_)
  · exact continuous_const.div (by fun_prop) fun x => (by positivity : 0 < a ^ 2 + x ^ 2).ne'
  · rw [Real.norm_of_nonneg (by positivity), ← div_eq_mul_inv, div_le_div_iff₀ (by positivity) (by positivity)]
    have : (1 + 1 / a ^ 2) * (a ^ 2 + x ^ 2) = 1 + x ^ 2 + a ^ 2 + x ^ 2 / a ^ 2 := by field_simp; ring
    rw [this]
    have h1 : 0 ≤ x ^ 2 / a ^ 2 := by positivity
    nlinarith [sq_nonneg a]

theorem rat2_int : IntegrableOn (fun x : ℝ => (a ^ 2 - x ^ 2) / (x ^ 2 + a ^ 2) ^ 2) (Ioi 0) := by
  refine (rat_int ha).mono' (Continuous.aestronglyMeasurable ?_) (Eventually.of_forall fun x => ?_)
  · exact Continuous.div (by fun_prop) (by fun_prop) fun x => (by positivity : 0 < (x ^ 2 + a ^ 2) ^ 2).ne'
  · rw [norm_div, Real.norm_of_nonneg (by positivity : 0 ≤ (x ^ 2 + a ^ 2) ^ 2),
      div_le_div_iff₀ (by positivity) (by positivity)]
    have : ‖a ^ 2 - x ^ 2‖ ≤ a ^ 2 + x ^ 2 := by
      rw [Real.norm_eq_abs, abs_le]; constructor <;> nlinarith [sq_nonneg a, sq_nonneg x]
    nlinarith [mul_le_mul_of_nonneg_right this (by positivity : 0 ≤ a ^ 2 + x ^ 2)]

theorem cos3_real (hb : 0 ≤ b) : ∫ x in Ioi (0 : ℝ), 1 / (a ^ 2 + x ^ 2) * Real.cos (x * b) =
    Real.pi * Real.exp (-a * b) / (2 * a) := by
  have hG : ∀ x, ∫ s in Ioi (0 : ℝ), Real.exp (-a * s) * Real.cos (x * s) = a * (1 / (a ^ 2 + x ^ 2)) := by
    intro x
    have h := (cos2_int ha x).2
    apply Complex.ofReal_injective
    rw [← integral_complex_ofReal]
    push_cast at h ⊢
    simp only [mul_comm (x : ℂ)]
    rw [h]; ring
  have := cos_inversion (g := fun s => Real.exp (-a * s)) (by fun_prop) (by
    simpa using pow_exp_int ha 0) hG ((rat_int ha).const_mul a) hb
  simp only [mul_assoc] at this
  rw [integral_const_mul] at this
  generalize (∫ x in Ioi (0 : ℝ), 1 / (a ^ 2 + x ^ 2) * Real.cos (x * b)) = V at *
  rw [eq_div_iff (by positivity)]
  linear_combination 2 * this

theorem cos3_int (hb : 0 ≤ b) : HasInt (fun x : ℝ => ((1 / (a ^ 2 + x ^ 2) : ℝ) : ℂ) * (Real.cos (x * b) : ℝ))
    (Real.pi * Real.exp (-a * b) / (2 * a) : ℝ) := by
  have hi : IntegrableOn (fun x : ℝ => 1 / (a ^ 2 + x ^ 2) * Real.cos (x * b)) (Ioi 0) := by
    refine (rat_int ha).mono' (Continuous.aestronglyMeasurable ?_) (Eventually.of_forall fun x => ?_)
    · exact (continuous_const.div (by fun_prop) fun x => (by positivity : 0 < a ^ 2 + x ^ 2).ne').mul (by fun_prop)
    · rw [norm_mul, Real.norm_of_nonneg (by positivity : 0 ≤ 1 / (a ^ 2 + x ^ 2))]
      exact mul_le_of_le_one_right (by positivity) (Real.abs_cos_le_one _)
  constructor
  · have := Integrable.ofReal (𝕜 := ℂ) hi
    refine this.congr (Eventually.of_forall fun x => ?_)
    simp
  · rw [← cos3_real ha b hb, ← integral_complex_ofReal]
    simp

/-- The cosine transform of `(a² - x²)/(a² + x²)²`. -/
theorem rat2_real (hb : 0 ≤ b) : ∫ x in Ioi (0 : ℝ), (a ^ 2 - x ^ 2) / (x ^ 2 + a ^ 2) ^ 2 * Real.cos (x * b) =
    Real.pi / 2 * (b * Real.exp (-a * b)) := by
  have hG : ∀ x, ∫ s in Ioi (0 : ℝ), s * Real.exp (-a * s) * Real.cos (x * s) =
      (a ^ 2 - x ^ 2) / (x ^ 2 + a ^ 2) ^ 2 := by
    intro x
    have h := (xcos_int ha x).2
    apply Complex.ofReal_injective
    rw [← integral_complex_ofReal]
    push_cast at h ⊢
    simp only [mul_comm (x : ℂ)]
    exact h
  exact cos_inversion (g := fun s => s * Real.exp (-a * s)) (by fun_prop) (by
    simpa using pow_exp_int ha 1) hG (rat2_int ha) hb

/-- The sine transform of `x/(a² + x²)` converges, but not absolutely. -/
theorem sin3_tendsto (hb : 0 < b) :
    PairInt (fun x => (Real.sin x : ℝ)) (fun x => ((x / (a ^ 2 + x ^ 2) : ℝ) : ℂ)) b
      (Real.pi * Real.exp (-a * b) / 2 : ℝ) := by
  have hpos : ∀ x : ℝ, 0 < a ^ 2 + x ^ 2 := fun x => by positivity
  have hcr : Continuous fun x : ℝ => x / (a ^ 2 + x ^ 2) * Real.sin (x * b) :=
    (Continuous.div (by fun_prop) (by fun_prop) fun x => (hpos x).ne').mul (by fun_prop)
  have hcg : Continuous fun x : ℝ => (a ^ 2 - x ^ 2) / (x ^ 2 + a ^ 2) ^ 2 * Real.cos (x * b) :=
    (Continuous.div (by fun_prop) (by fun_prop) fun x => (by positivity : 0 < (x ^ 2 + a ^ 2) ^ 2).ne').mul
      (by fun_prop)
  have hofr : (fun x : ℝ => ((x / (a ^ 2 + x ^ 2) : ℝ) : ℂ) * ((Real.sin (x * b) : ℝ) : ℂ)) =
      fun x : ℝ => ((x / (a ^ 2 + x ^ 2) * Real.sin (x * b) : ℝ) : ℂ) := by
    funext x; push_cast; rfl
  refine ⟨fun L _ => ?_, ?_⟩
  · rw [hofr]
    exact (Complex.continuous_ofReal.comp hcr).intervalIntegrable _ _
  simp only [hofr, intervalIntegral.integral_ofReal]
  refine (Complex.continuous_ofReal.tendsto _).comp ?_
  have hd : ∀ x : ℝ, HasDerivAt (fun x : ℝ => -(x / (a ^ 2 + x ^ 2) * (Real.cos (x * b) / b)))
      (x / (a ^ 2 + x ^ 2) * Real.sin (x * b) - 1 / b * ((a ^ 2 - x ^ 2) / (x ^ 2 + a ^ 2) ^ 2 * Real.cos (x * b))) x := by
    intro x
    have h1 : HasDerivAt (fun x : ℝ => a ^ 2 + x ^ 2) (2 * x) x := by
      simpa using ((hasDerivAt_id x).pow 2).const_add (a ^ 2)
    have h2 : HasDerivAt (fun x : ℝ => x * b) b x := by simpa using (hasDerivAt_id x).mul_const b
    have h3 := ((hasDerivAt_id x).div h1 (hpos x).ne').mul (h2.cos.div_const b)
    refine h3.neg.congr_deriv ?_
    have := (hpos x).ne'
    have : x ^ 2 + a ^ 2 ≠ 0 := by rw [add_comm]; exact this
    simp only [id, Pi.div_apply]
    rw [add_comm (x ^ 2)]
    field_simp
    ring
  have hparts : ∀ L : ℝ, ∫ x in (0 : ℝ)..L, x / (a ^ 2 + x ^ 2) * Real.sin (x * b) =
      -(L / (a ^ 2 + L ^ 2) * (Real.cos (L * b) / b)) +
        1 / b * ∫ x in (0 : ℝ)..L, (a ^ 2 - x ^ 2) / (x ^ 2 + a ^ 2) ^ 2 * Real.cos (x * b) := by
    intro L
    have := intervalIntegral.integral_eq_sub_of_hasDerivAt (a := 0) (b := L) (fun x _ => hd x)
      ((hcr.sub (hcg.const_smul (1 / b))).intervalIntegrable _ _)
    rw [intervalIntegral.integral_sub (hcr.intervalIntegrable _ _)
      ((hcg.intervalIntegrable _ _).const_mul _), intervalIntegral.integral_const_mul] at this
    simp only [zero_div, zero_mul, neg_zero, sub_zero] at this
    linear_combination this
  simp only [hparts]
  have t1 : Tendsto (fun L : ℝ => -(L / (a ^ 2 + L ^ 2) * (Real.cos (L * b) / b))) atTop (𝓝 0) := by
    have hb1 : Tendsto (fun L : ℝ => L⁻¹ * (1 / b)) atTop (𝓝 0) := by
      simpa using tendsto_inv_atTop_zero.mul_const (1 / b)
    refine squeeze_zero_norm' ?_ hb1
    filter_upwards [eventually_gt_atTop 0] with L hL
    rw [norm_neg, norm_mul, norm_div, norm_div, Real.norm_of_nonneg hL.le, Real.norm_of_nonneg (hpos L).le,
      Real.norm_of_nonneg hb.le]
    refine mul_le_mul ?_ ?_ (by positivity) (by positivity)
    · rw [div_le_iff₀ (hpos L), inv_mul_eq_div, le_div_iff₀ hL]
      nlinarith [sq_nonneg a]
    · gcongr
      exact Real.abs_cos_le_one _
  have t2 : Tendsto (fun L : ℝ => ∫ x in (0 : ℝ)..L, (a ^ 2 - x ^ 2) / (x ^ 2 + a ^ 2) ^ 2 * Real.cos (x * b)) atTop
      (𝓝 (Real.pi / 2 * (b * Real.exp (-a * b)))) := by
    rw [← rat2_real ha b hb.le]
    refine intervalIntegral_tendsto_integral_Ioi 0 ?_ tendsto_id
    refine (rat2_int ha).norm.mono' hcg.aestronglyMeasurable (Eventually.of_forall fun x => ?_)
    rw [norm_mul]
    exact mul_le_of_le_one_right (norm_nonneg _) (Real.abs_cos_le_one _)
  have := t1.add (t2.const_mul (1 / b))
  have ev : 0 + 1 / b * (Real.pi / 2 * (b * Real.exp (-a * b))) = Real.pi * Real.exp (-a * b) / 2 := by
    field_simp; ring
  rwa [ev] at this

end

/-! ## Bessel functions -/

theorem pair_somm {sqrt : ℂ → ℂ} (hq : IsSqrt sqrt) {mu0 f rho z b : ℝ} (hmu : 0 < mu0) (hf : 0 < f) (hr : 0 < rho)
    (hz : z ≠ 0) (hb : 0 < b) : ∃ u, Somm 1 (gamOf sqrt mu0 f rho) ((Real.sqrt (b ^ 2 + z ^ 2) : ℝ) : ℂ) u |z| b
      (betaOf sqrt (gamOf sqrt mu0 f rho)) := by
  have hpi := Real.pi_pos
  obtain ⟨k, hk, ek⟩ : ∃ k : ℝ, 0 < k ∧ 2 * Complex.I * Real.pi * mu0 * f / rho = Complex.I * k :=
    ⟨2 * Real.pi * mu0 * f / rho, by positivity, by push_cast; ring⟩
  have im0 : ∀ x : ℝ, ((x : ℂ) ^ 2 + Complex.I * k).im = k := by
    intro x; rw [← Complex.ofReal_pow, Complex.add_im, Complex.ofReal_im]; simp
  have sl : ∀ x : ℝ, (x : ℂ) ^ 2 + Complex.I * k ∈ Complex.slitPlane := fun x =>
    Or.inr (by rw [im0]; exact hk.ne')
  have pos : ∀ w : ℂ, w ∈ Complex.slitPlane → 0 < ‖w‖ + w.re := by
    intro w hw
    by_contra hn
    have h1 := Complex.abs_re_le_norm w
    have h2 : w.re = -‖w‖ := by
      have := abs_le.1 h1; linarith
    have h3 : w.im = 0 := by
      have := Complex.sq_norm w
      rw [Complex.normSq_apply] at this
      have : w.im * w.im = 0 := by rw [h2] at this; nlinarith
      exact mul_self_eq_zero.1 this
    rcases hw with hw | hw
    · have := norm_nonneg w; linarith
    · exact hw h3
  have eg : gamOf sqrt mu0 f rho ^ 2 = Complex.I * k := by rw [gamOf, hq.sq, ek]
  have hg : 0 < (gamOf sqrt mu0 f rho).re := by
    have := sl 0
    rw [Complex.ofReal_zero, zero_pow two_ne_zero, zero_add] at this
    rw [gamOf, ek, hq.main _ this]
    exact csqrt_re_pos (pos _ this)
  have u2 : csqrt (1 - Complex.I) ^ 2 = 1 - Complex.I := by rw [pow_two, csqrt_sq]
  refine ⟨csqrt (1 - Complex.I), abs_pos.2 hz, hb, one_ne_zero, fun l _ => ?_, ?_, fun l _ => ?_, hg, ?_, ?_, ?_, ?_, ?_⟩
  · rw [betaOf, hq.sq, one_mul]
  · have : Real.sqrt (b ^ 2 + z ^ 2) ^ 2 = |z| ^ 2 + b ^ 2 := by
      rw [Real.sq_sqrt (by positivity), sq_abs]; ring
    rw [div_one]
    exact_mod_cast this
  · rw [betaOf, eg, hq.main _ (sl l)]
    exact csqrt_re_pos (pos _ (sl l))
  · rw [Complex.ofReal_re]; positivity
  · exact csqrt_re_pos (pos _ (Or.inl (by simp)))
  · rw [u2]; simp
  · rw [u2, mul_one]; simp
  · rw [u2, eg]
    have : (1 - Complex.I) * (Complex.I * k) = Complex.I * k + k := by
      linear_combination (-(k : ℂ)) * Complex.I_sq
    rw [this]; simpa using hk

theorem lap_ofReal (a x : ℝ) : lap a x = ((Real.exp (-a * x) : ℝ) : ℂ) := by
  unfold lap; push_cast; rfl

theorem rpow_hyp {a : ℝ} (ha : 0 < a) (b : ℝ) :
    (b ^ 2 + a ^ 2) ^ (3 / 2 : ℝ) = Real.sqrt (a ^ 2 + b ^ 2) ^ 3 := by
  have h : 0 ≤ b ^ 2 + a ^ 2 := by positivity
  rw [add_comm (a ^ 2), Real.sqrt_eq_rpow]
  generalize b ^ 2 + a ^ 2 = w at h
  rw [← Real.rpow_natCast, ← Real.rpow_mul h]
  norm_num

/-! ## The pairs -/

/-- **C46.**  All transform pairs offered by the filter design are transform pairs: for all parameters and every
`b > 0`, the integral of `lhs(x)` times the kernel of the named transform at `x b` exists and is `rhs(b)`. -/
theorem C46_pairs {a : ℝ} (ha : 0 < a) {sqrt : ℂ → ℂ} (hq : IsSqrt sqrt) {mu0 f rho z : ℝ} (hmu : 0 < mu0)
    (hf : 0 < f) (hr : 0 < rho) (hz : z ≠ 0) :
    ∀ P ∈ [j0_1 a, j0_2 a, j0_3 a, j0_4 sqrt mu0 f rho z, j0_5 sqrt mu0 f rho z,
      j1_1 a, j1_2 a, j1_3 a, j1_4 sqrt mu0 f rho z, j1_5 sqrt mu0 f rho z,
      sin_1 a false, sin_2 a false, sin_3 a false, cos_1 a false, cos_2 a false, cos_3 a false], IsPair 1 P := by
  have haC : (a : ℂ) ≠ 0 := by exact_mod_cast ha.ne'
  have hre : 0 < (a : ℂ).re := by simpa using ha
  have hg : ∀ x : ℝ, gau a x = ((Real.exp (-a * x ^ 2) : ℝ) : ℂ) := fun x => by unfold gau; push_cast; rfl
  simp only [List.forall_mem_cons, List.not_mem_nil, false_imp_iff, implies_true, and_true]
  refine ⟨?_, ?_, ?_, ?_, ?_, ?_, ?_, ?_, ?_, ?_, ?_, ?_, ?_, ?_, ?_, ?_⟩
  · refine ⟨_, _, kernel_j0, rfl, fun b hb => .of_int ?_⟩
    refine HasInt.congr ⟨iJ0 hre b 1, gau_J0 hre b⟩ (fun x _ => ?_) ?_
    · simp only [j0_1, ghoshR, ghosh, hg]; push_cast; ring
    · push_cast; ring
  · refine ⟨_, _, kernel_j0, rfl, fun b hb => .of_int ?_⟩
    refine HasInt.congr ⟨lJ0 ha b 0, (lap_J ha b).1⟩ (fun x _ => ?_) ?_
    · simp only [j0_2, ghoshR, ghosh, lap_ofReal]; ring
    · beta_reduce; rw [add_comm (b ^ 2)]; push_cast; ring
  · refine ⟨_, _, kernel_j0, rfl, fun b hb => .of_int ?_⟩
    refine HasInt.congr ⟨lJ0 ha b 1, (lap_J ha b).2.1⟩ (fun x _ => ?_) ?_
    · simp only [j0_3, ghoshR, ghosh, lap_ofReal]; push_cast; ring
    · beta_reduce; rw [rpow_hyp ha]; push_cast; ring
  · refine ⟨_, _, kernel_j0, rfl, fun b hb => .of_int ?_⟩
    obtain ⟨u, hs⟩ := pair_somm hq hmu hf hr hz hb
    refine hs.A0.congr (fun x _ => ?_) ?_
    · simp only [j0_4, ghosh, neg_mul]; ring
    · simp only [neg_mul, one_mul]
  · refine ⟨_, _, kernel_j0, rfl, fun b hb => .of_int ?_⟩
    obtain ⟨u, hs⟩ := pair_somm hq hmu hf hr hz hb
    have hR := hs.R0
    refine hs.A1.congr (fun x _ => ?_) ?_
    · simp only [j0_5, ghosh, neg_mul]; ring
    · simp only [neg_mul, one_mul]; field_simp; ring
  · refine ⟨_, _, kernel_j1, rfl, fun b hb => .of_int ?_⟩
    refine HasInt.congr ⟨iJ1 hre b 2, gau_J1 hre b⟩ (fun x _ => ?_) ?_
    · simp only [j1_1, ghoshR, ghosh, hg]; push_cast; ring
    · push_cast; ring
  · refine ⟨_, _, kernel_j1, rfl, fun b hb => .of_int ?_⟩
    have hbC : (b : ℂ) ≠ 0 := by exact_mod_cast hb.ne'
    have hR : ((Real.sqrt (a ^ 2 + b ^ 2) : ℝ) : ℂ) ≠ 0 := by
      have : Real.sqrt (a ^ 2 + b ^ 2) ≠ 0 := by positivity
      exact_mod_cast this
    refine HasInt.congr ⟨lJ1 ha b 0, mul_left_cancel₀ hbC ((lap_J ha b).2.2.2.trans ?_)⟩ (fun x _ => ?_) rfl
    · beta_reduce; rw [add_comm (b ^ 2)]; push_cast; field_simp
    · simp only [j1_2, ghoshR, ghosh, lap_ofReal]; ring
  · refine ⟨_, _, kernel_j1, rfl, fun b hb => .of_int ?_⟩
    refine HasInt.congr ⟨lJ1 ha b 1, (lap_J ha b).2.2.1⟩ (fun x _ => ?_) ?_
    · simp only [j1_3, ghoshR, ghosh, lap_ofReal]; push_cast; ring
    · beta_reduce; rw [rpow_hyp ha]; push_cast; ring
  · refine ⟨_, _, kernel_j1, rfl, fun b hb => .of_int ?_⟩
    obtain ⟨u, hs⟩ := pair_somm hq hmu hf hr hz hb
    have hR := hs.R0
    refine hs.C0.congr (fun x _ => ?_) ?_
    · simp only [j1_4, ghosh, neg_mul]; ring
    · simp only [neg_mul, one_mul]; field_simp; ring
  · refine ⟨_, _, kernel_j1, rfl, fun b hb => .of_int ?_⟩
    obtain ⟨u, hs⟩ := pair_somm hq hmu hf hr hz hb
    have hR := hs.R0
    refine hs.C1.congr (fun x _ => ?_) ?_
    · simp only [j1_5, ghosh, neg_mul]; ring
    · simp only [neg_mul, one_mul]; field_simp; ring
  · refine ⟨_, _, kernel_sin, rfl, fun b hb => .of_int ?_⟩
    exact (sin1_int ha b).congr (fun x _ => rfl) (one_mul _)
  · refine ⟨_, _, kernel_sin, rfl, fun b hb => .of_int ?_⟩
    exact (sin2_int ha b).congr (fun x _ => rfl) (by push_cast; ring)
  · refine ⟨_, _, kernel_sin, rfl, fun b hb => ?_⟩
    rw [one_mul]
    exact sin3_tendsto ha b hb
  · refine ⟨_, _, kernel_cos, rfl, fun b hb => .of_int ?_⟩
    exact (cos1_int ha b).congr (fun x _ => rfl) (one_mul _)
  · refine ⟨_, _, kernel_cos, rfl, fun b hb => .of_int ?_⟩
    exact (cos2_int ha b).congr (fun x _ => rfl) (by push_cast; ring)
  · refine ⟨_, _, kernel_cos, rfl, fun b hb => .of_int ?_⟩
    exact (cos3_int ha b hb.le).congr (fun x _ => rfl) (one_mul _)

/-- The pairs returned for `inverse=True` are pairs up to the factor `π/2`. -/
theorem C46_inverse {a : ℝ} (ha : 0 < a) :
    ∀ P ∈ [sin_1 a true, sin_2 a true, sin_3 a true, cos_1 a true, cos_2 a true, cos_3 a true],
      IsPair (Real.pi / 2) P := by
  have haC : (a : ℂ) ≠ 0 := by exact_mod_cast ha.ne'
  have hpi : (Real.pi : ℂ) ≠ 0 := by exact_mod_cast Real.pi_pos.ne'
  have hsq : ((Real.sqrt Real.pi : ℝ) : ℂ) ^ 2 = Real.pi := by
    rw [← Complex.ofReal_pow, Real.sq_sqrt Real.pi_pos.le]
  have ha2 : 0 < 1 / (2 * a) := by positivity
  have eg : ∀ x : ℝ, -(1 / (2 * a)) ^ 2 * x ^ 2 = -x ^ 2 / (4 * a ^ 2) := fun x => by field_simp; ring
  have eg' : ∀ b : ℝ, -b ^ 2 / (4 * (1 / (2 * a)) ^ 2) = -a ^ 2 * b ^ 2 := fun b => by field_simp; ring
  simp only [List.forall_mem_cons, List.not_mem_nil, false_imp_iff, implies_true, and_true]
  refine ⟨?_, ?_, ?_, ?_, ?_, ?_⟩
  · refine ⟨_, _, kernel_sin, rfl, fun b hb => ?_⟩
    have h := PairInt.of_int (K := fun x => ((Real.sin x : ℝ) : ℂ))
      (lhs := fun x => ((x * Real.exp (-(1 / (2 * a)) ^ 2 * x ^ 2) : ℝ) : ℂ)) (sin1_int ha2 b)
    refine h.smul (Real.sqrt Real.pi / (4 * a ^ 3)) (fun x => ?_) ?_
    · simp only [sin_1, swapIf, if_true, ghoshR, ghosh, eg]; push_cast; ring
    · rw [eg']; push_cast; field_simp; rw [hsq]; ring
  · refine ⟨_, _, kernel_sin, rfl, fun b hb => ?_⟩
    refine (sin3_tendsto ha b hb).smul 1 (fun x => ?_) ?_
    · simp only [sin_2, swapIf, if_true, ghoshR, ghosh, add_comm (x ^ 2), one_mul]
    · push_cast; ring
  · refine ⟨_, _, kernel_sin, rfl, fun b hb => ?_⟩
    refine (PairInt.of_int (K := fun x => ((Real.sin x : ℝ) : ℂ)) (lhs := fun x => ((Real.exp (-a * x) : ℝ) : ℂ))
      (sin2_int ha b)).smul (Real.pi / 2) (fun x => ?_) ?_
    · simp only [sin_3, swapIf, if_true, ghoshR, ghosh]; push_cast; ring
    · beta_reduce; rw [add_comm (a ^ 2)]; push_cast; ring
  · refine ⟨_, _, kernel_cos, rfl, fun b hb => ?_⟩
    have h := PairInt.of_int (K := fun x => ((Real.cos x : ℝ) : ℂ))
      (lhs := fun x => ((Real.exp (-(1 / (2 * a)) ^ 2 * x ^ 2) : ℝ) : ℂ)) (cos1_int ha2 b)
    refine h.smul (Real.sqrt Real.pi / (2 * a)) (fun x => ?_) ?_
    · simp only [cos_1, swapIf, if_true, ghoshR, ghosh, eg]; push_cast; ring
    · rw [eg']; push_cast; field_simp; rw [hsq]
  · refine ⟨_, _, kernel_cos, rfl, fun b hb => ?_⟩
    refine (PairInt.of_int (K := fun x => ((Real.cos x : ℝ) : ℂ))
      (lhs := fun x => ((1 / (a ^ 2 + x ^ 2) : ℝ) : ℂ)) (cos3_int ha b hb.le)).smul a (fun x => ?_) ?_
    · simp only [cos_2, swapIf, if_true, ghoshR, ghosh, add_comm (x ^ 2)]; push_cast; ring
    · push_cast; field_simp
  · refine ⟨_, _, kernel_cos, rfl, fun b hb => ?_⟩
    refine (PairInt.of_int (K := fun x => ((Real.cos x : ℝ) : ℂ)) (lhs := fun x => ((Real.exp (-a * x) : ℝ) : ℂ))
      (cos2_int ha b)).smul (Real.pi / (2 * a)) (fun x => ?_) ?_
    · simp only [cos_3, swapIf, if_true, ghoshR, ghosh]; push_cast; ring
    · beta_reduce; rw [add_comm (a ^ 2)]; push_cast; field_simp

theorem pair_factor {P : Pair} {c d : ℂ} (h : IsPair c P) (h' : IsPair d P)
    (hn : ∀ rhs, P.rhs = .fn rhs → rhs 1 ≠ 0) : c = d := by
  obtain ⟨K, rhs, k1, r1, t1⟩ := h
  obtain ⟨K', rhs', k2, r2, t2⟩ := h'
  obtain rfl : K = K' := Option.some.inj (k1.symm.trans k2)
  obtain rfl : rhs = rhs' := by rw [r1] at r2; exact Rhs.fn.inj r2
  exact mul_right_cancel₀ (hn rhs r1) ((t1 1 one_pos).unique (t2 1 one_pos))

/-- None of them is a pair of the transform it is named after. -/
theorem C46_inverse_violated {a : ℝ} (ha : 0 < a) :
    ∀ P ∈ [sin_1 a true, sin_2 a true, sin_3 a true, cos_1 a true, cos_2 a true, cos_3 a true], ¬ IsPair 1 P := by
  intro P hP h
  have e := pair_factor h (C46_inverse ha P hP) (by
    intro rhs hr
    simp only [List.mem_cons, List.not_mem_nil, or_false] at hP
    rcases hP with rfl | rfl | rfl | rfl | rfl | rfl <;>
    · simp only [sin_1, sin_2, sin_3, cos_1, cos_2, cos_3, swapIf, if_true, ghoshR, ghosh, Rhs.fn.injEq] at hr
      rw [← hr]
      have : ∀ x : ℝ, 0 < x → ((x : ℝ) : ℂ) ≠ 0 := fun x hx => by exact_mod_cast hx.ne'
      exact this _ (by positivity))
  have e' : (1 : ℝ) = Real.pi / 2 := by exact_mod_cast e
  have := Real.pi_gt_three
  linarith

/-- The default parameters; the value at `b = 1` of the pair `sin_2` is one half. -/
example : IsPair 1 (sin_2 1 false) ∧ ∃ K, ∃ rhs : ℝ → ℂ, pairKernel (sin_2 1 false).name = some K ∧
    PairInt K (sin_2 1 false).lhs 1 (rhs 1) ∧ rhs 1 = 1 / 2 := by
  have h : IsPair 1 (sin_2 1 false) := C46_pairs one_pos (sqrt := csqrt) ⟨csqrt_sq', fun _ _ => rfl⟩ (mu0 := 1.25663706e-6) (f := 1) (rho := 0.3)
    (z := 50) (by norm_num) one_pos (by norm_num) (by norm_num) _ (by simp)
  refine ⟨h, ?_⟩
  obtain ⟨K, rhs, k, r, t⟩ := h
  refine ⟨K, rhs, k, by simpa using t 1 one_pos, ?_⟩
  simp only [sin_2, swapIf, ghoshR, ghosh, Bool.false_eq_true, if_false, Rhs.fn.injEq] at r
  rw [← r]
  norm_num

end Verif.Props
