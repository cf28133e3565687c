import Verif.Lemmas.Subord
import Verif.Lemmas.GaussHankel
import Mathlib.MeasureTheory.Integral.Prod

/-!
# The Sommerfeld identity and its relatives

Hankel transforms of `exp(-Γ z)/Γ`, `exp(-Γ z)` and `Γ exp(-Γ z)` with `Γ² = a λ² + g`, for complex `a`,
`g`: a rotated subordination integral, exchange of the integrals, and the Gaussian transforms.
-/

namespace Verif.Lemmas
open Verif.Spec MeasureTheory Set Filter Topology

/-- `f` is integrable over the wavenumbers `λ > 0`, with value `v`. -/
def HasInt (f : ℝ → ℂ) (v : ℂ) : Prop :=
  IntegrableOn f (Ioi 0) ∧ ∫ l in Ioi (0 : ℝ), f l = v

theorem HasInt.add {f f' : ℝ → ℂ} {v v' : ℂ} (h : HasInt f v) (h' : HasInt f' v') :
    HasInt (fun l => f l + f' l) (v + v') :=
  ⟨h.1.add h'.1, by rw [integral_add h.1 h'.1, h.2, h'.2]⟩

theorem HasInt.smul {f : ℝ → ℂ} {v : ℂ} (c : ℂ) (h : HasInt f v) :
    HasInt (fun l => c * f l) (c * v) :=
  ⟨h.1.const_mul c, by rw [integral_const_mul, h.2]⟩

theorem HasInt.congr {f f' : ℝ → ℂ} {v v' : ℂ} (h : HasInt f v) (e : ∀ l : ℝ, 0 < l → f' l = f l)
    (ev : v' = v) : HasInt f' v' := by
  subst ev
  have he : EqOn f' f (Ioi 0) := fun l hl => e l hl
  exact ⟨h.1.congr_fun he.symm measurableSet_Ioi, by
    rw [setIntegral_congr_fun measurableSet_Ioi he, h.2]⟩

theorem HasInt.zero : HasInt (fun _ => 0) 0 := by
  constructor <;> simp [integrableOn_zero]

theorem HasInt.unique {f : ℝ → ℂ} {v v' : ℂ} (h : HasInt f v) (h' : HasInt f v') : v = v' :=
  h.2.symm.trans h'.2

theorem pow_exp_int {κ : ℝ} (hκ : 0 < κ) (k : ℕ) :
    IntegrableOn (fun l : ℝ => l ^ k * Real.exp (-(κ * l))) (Ioi 0) := by
  have := integrableOn_rpow_mul_exp_neg_mul_rpow (s := k) (p := 1)
    (lt_of_lt_of_le (by norm_num) (Nat.cast_nonneg k)) one_pos hκ
  simpa using this

theorem kz_gau (n : ℕ) (a g c Z : ℂ) (l t : ℝ) :
    kz n (c * (a * (l : ℂ) ^ 2 + g)) Z t = kz n (c * g) Z t * gau (c * a * t) l := by
  unfold kz gau
  rw [div_mul_eq_mul_div, ← Complex.exp_add]
  congr 2; ring

/-- Exchange of the two integrals. -/
theorem fub {a g c Z : ℂ} (ha : 0 < (c * a).re) (hg : 0 < (c * g).re) (hZ : 0 < Z.re) (n k : ℕ)
    {h : ℝ → ℂ} (hh : Continuous h) (hb : ∀ l : ℝ, 0 < l → ‖h l‖ ≤ l ^ k) :
    HasInt (fun l => h l * ∫ t in Ioi (0 : ℝ), kz n (c * (a * (l : ℂ) ^ 2 + g)) Z t)
      (∫ t in Ioi (0 : ℝ), kz n (c * g) Z t * ∫ l in Ioi (0 : ℝ), h l * gau (c * a * t) l) := by
  set κ : ℝ := Real.sqrt (2 * (c * a).re * Z.re)
  have hκ : 0 < κ := Real.sqrt_pos.2 (by positivity)
  have hκ2 : κ ^ 2 = 2 * (c * a).re * Z.re := Real.sq_sqrt (by positivity)
  have hint : Integrable (Function.uncurry fun (l t : ℝ) => h l * (kz n (c * g) Z t * gau (c * a * t) l))
      ((volume.restrict (Ioi (0 : ℝ))).prod (volume.restrict (Ioi (0 : ℝ)))) := by
    have hprod := (pow_exp_int hκ k).mul_prod (dW_int n (half_pos hZ) hg)
    refine hprod.mono' ?_ ?_
    · rw [Measure.prod_restrict]
      refine ContinuousOn.aestronglyMeasurable ?_ (measurableSet_Ioi.prod measurableSet_Ioi)
      have c1 : ContinuousOn (fun p : ℝ × ℝ => kz n (c * g) Z p.2) (Ioi 0 ×ˢ Ioi 0) :=
        (kz_cont n (c * g) Z).comp continuousOn_snd fun p hp => hp.2
      have c2 : Continuous fun p : ℝ × ℝ => gau (c * a * p.2) p.1 := by unfold gau; fun_prop
      exact (hh.comp continuous_fst).continuousOn.mul (c1.mul c2.continuousOn)
    · rw [Measure.prod_restrict]
      refine (ae_restrict_mem (measurableSet_Ioi.prod measurableSet_Ioi)).mono fun p hp => ?_
      obtain ⟨l, t⟩ := p
      obtain ⟨hl, ht⟩ := hp
      have hl : 0 < l := hl
      have ht : 0 < t := ht
      simp only [Function.uncurry]
      rw [norm_mul, norm_mul, kz_norm n _ _ ht.le, gau_norm]
      have e1 : (c * a * (t : ℂ)).re = (c * a).re * t := by
        rw [mul_comm (c * a), Complex.re_ofReal_mul]; ring
      rw [e1]
      have e2 : dW n Z.re (c * g).re t * Real.exp (-((c * a).re * t) * l ^ 2) ≤
          Real.exp (-(κ * l)) * dW n (Z.re / 2) (c * g).re t := by
        unfold dW
        rw [div_mul_eq_mul_div, mul_div_assoc', ← Real.exp_add, ← Real.exp_add]
        refine div_le_div_of_nonneg_right (Real.exp_le_exp.2 ?_) (by positivity)
        have key : κ * l ≤ Z.re / 2 / t + (c * a).re * t * l ^ 2 := by
          rw [div_add' _ _ _ ht.ne', le_div_iff₀ ht]
          have h4 : 0 ≤ (Z.re - κ * l * t) ^ 2 := sq_nonneg _
          have h5 : (Z.re - κ * l * t) ^ 2 = Z.re * (Z.re - 2 * κ * l * t + 2 * (c * a).re * l ^ 2 * t ^ 2) := by
            linear_combination l ^ 2 * t ^ 2 * hκ2
          rw [h5] at h4
          have h6 := nonneg_of_mul_nonneg_right h4 hZ
          nlinarith
        have e3 : -Z.re / t = -(Z.re / 2 / t) - Z.re / 2 / t := by ring
        have e4 : -(Z.re / 2) / t = -(Z.re / 2 / t) := by ring
        rw [e3, e4]
        linarith
      calc _ ≤ l ^ k * (Real.exp (-(κ * l)) * dW n (Z.re / 2) (c * g).re t) :=
            mul_le_mul (hb l hl) e2 (mul_nonneg (dW_nonneg n ht) (Real.exp_pos _).le) (by positivity)
        _ = _ := by ring
  have el : ∀ l : ℝ, h l * (∫ t in Ioi (0 : ℝ), kz n (c * (a * (l : ℂ) ^ 2 + g)) Z t) =
      ∫ t in Ioi (0 : ℝ), h l * (kz n (c * g) Z t * gau (c * a * t) l) := by
    intro l
    rw [← integral_const_mul]
    exact integral_congr_ae (Eventually.of_forall fun t => by simp only [kz_gau])
  constructor
  · refine (Integrable.integral_prod_left hint).congr (Eventually.of_forall fun l => ?_)
    simp only [Function.uncurry]
    rw [el]
  · rw [show (fun l : ℝ => h l * ∫ t in Ioi (0 : ℝ), kz n (c * (a * (l : ℂ) ^ 2 + g)) Z t) =
      fun l : ℝ => ∫ t in Ioi (0 : ℝ), h l * (kz n (c * g) Z t * gau (c * a * t) l) from funext el]
    rw [integral_integral_swap hint]
    refine integral_congr_ae (Eventually.of_forall fun t => ?_)
    simp only
    rw [← integral_const_mul]
    refine integral_congr_ae (Eventually.of_forall fun l => ?_)
    simp only; ring

/-- The product of numbers in the right half plane stays there if it can be seen from the squares. -/
theorem rot_re {u w : ℂ} (h1 : 0 < u.re) (h2 : 0 ≤ (u ^ 2).re) (h3 : 0 < w.re)
    (h4 : 0 < ((u * w) ^ 2).re) : 0 < (u * w).re := by
  have e1 : (u ^ 2).re = u.re ^ 2 - u.im ^ 2 := by rw [pow_two, Complex.mul_re]; ring
  have e2 : ((u * w) ^ 2).re = (u * w).re ^ 2 - (u * w).im ^ 2 := by
    rw [pow_two, Complex.mul_re]; ring
  have e3 : u.re * (u * w).re + u.im * (u * w).im = w.re * (u.re ^ 2 + u.im ^ 2) := by
    rw [Complex.mul_re, Complex.mul_im]; ring
  rw [e1] at h2
  rw [e2] at h4
  generalize (u * w).re = X at *
  generalize (u * w).im = Y at *
  by_contra hX
  have hX : X ≤ 0 := not_lt.1 hX
  have a1 : |u.im| ≤ u.re := abs_le_of_sq_le_sq (by linarith) h1.le
  have a2 : |Y| < -X := abs_lt_of_sq_lt_sq (by nlinarith) (by linarith)
  have a3 : u.im * Y ≤ |u.im| * |Y| := by rw [← abs_mul]; exact le_abs_self _
  have a4 : |u.im| * |Y| ≤ u.re * (-X) :=
    mul_le_mul a1 a2.le (abs_nonneg _) h1.le
  have a5 : 0 < w.re * (u.re ^ 2 + u.im ^ 2) := by positivity
  nlinarith

/-- The data of the identities: `Γ² = aλ² + γ²`, `R² = z² + ρ²/a`, all roots in the right half plane, and a
rotation `u²` which moves `1`, `a`, `γ²` into the right half plane. -/
structure Somm (a γ R u : ℂ) (z ρ : ℝ) (Γ : ℝ → ℂ) : Prop where
  zpos : 0 < z
  rpos : 0 < ρ
  a0 : a ≠ 0
  hΓ : ∀ l : ℝ, 0 < l → Γ l ^ 2 = a * (l : ℂ) ^ 2 + γ ^ 2
  hR : R ^ 2 = (z : ℂ) ^ 2 + (ρ : ℂ) ^ 2 / a
  pΓ : ∀ l : ℝ, 0 < l → 0 < (Γ l).re
  pγ : 0 < γ.re
  pR : 0 < R.re
  pu : 0 < u.re
  pu2 : 0 < (u ^ 2).re
  pa : 0 < (u ^ 2 * a).re
  pg : 0 < (u ^ 2 * γ ^ 2).re

theorem inv_re {w : ℂ} (h : 0 < w.re) : 0 < (1 / w).re := by
  rw [one_div, Complex.inv_re]
  have : w ≠ 0 := fun e => by rw [e] at h; simp at h
  have := Complex.normSq_pos.2 this
  positivity

namespace Somm
variable {a γ R u : ℂ} {z ρ : ℝ} {Γ : ℝ → ℂ} (s : Somm a γ R u z ρ Γ)
include s

theorem u0 : u ≠ 0 := fun e => by have := s.pu; rw [e] at this; simp at this
theorem R0 : R ≠ 0 := fun e => by have := s.pR; rw [e] at this; simp at this
theorem γ0 : γ ≠ 0 := fun e => by have := s.pγ; rw [e] at this; simp at this
theorem z0 : (z : ℂ) ≠ 0 := by exact_mod_cast s.zpos.ne'
theorem ρ0 : (ρ : ℂ) ≠ 0 := by exact_mod_cast s.rpos.ne'
theorem Γ0 {l : ℝ} (hl : 0 < l) : Γ l ≠ 0 := fun e => by
  have := s.pΓ l hl; rw [e] at this; simp at this

theorem pui : 0 < (1 / u).re := inv_re s.pu
theorem pui2 : 0 < ((1 / u) ^ 2).re := by
  rw [div_pow, one_pow]; exact inv_re s.pu2

theorem half_re {w : ℂ} (h : 0 < w.re) : 0 < (w / 2).re := by
  rw [show w / 2 = ((1 / 2 : ℝ) : ℂ) * w by push_cast; ring, Complex.re_ofReal_mul]; positivity

theorem quarter_re {w : ℂ} (h : 0 < w.re) : 0 < (w / 4).re := by
  rw [show w / 4 = ((1 / 4 : ℝ) : ℂ) * w by push_cast; ring, Complex.re_ofReal_mul]; positivity

theorem pZ : 0 < ((z / (2 * u)) ^ 2).re := by
  have : ((z : ℂ) / (2 * u)) ^ 2 = ((z ^ 2 : ℝ) : ℂ) * ((1 / u) ^ 2) / 4 := by
    have := s.u0; push_cast; field_simp; try ring
  rw [this]
  refine s.quarter_re ?_
  rw [Complex.re_ofReal_mul]
  have := s.pui2; have := s.zpos
  positivity

theorem pZr : 0 < (z / (2 * u)).re := by
  have : (z : ℂ) / (2 * u) = (z : ℂ) * (1 / u) / 2 := by
    have := s.u0; field_simp; try ring
  rw [this]
  refine s.half_re ?_
  rw [Complex.re_ofReal_mul]
  exact mul_pos s.zpos s.pui

theorem eZ' : (z / (2 * u)) ^ 2 + (ρ : ℂ) ^ 2 / (4 * (u ^ 2 * a)) = (R / (2 * u)) ^ 2 := by
  have := s.u0; have := s.a0
  rw [div_pow, div_pow, s.hR]
  field_simp
  try ring

theorem pZ' : 0 < ((R / (2 * u)) ^ 2).re := by
  rw [← s.eZ', Complex.add_re]
  have h1 := s.pZ
  have h2 : (ρ : ℂ) ^ 2 / (4 * (u ^ 2 * a)) = ((ρ ^ 2 : ℝ) : ℂ) * (1 / (u ^ 2 * a)) / 4 := by
    have := s.u0; have := s.a0; push_cast; field_simp; try ring
  have h3 : 0 < ((ρ : ℂ) ^ 2 / (4 * (u ^ 2 * a))).re := by
    rw [h2]
    refine s.quarter_re ?_
    rw [Complex.re_ofReal_mul]
    exact mul_pos (by have := s.rpos; positivity) (inv_re s.pa)
  linarith

theorem pZr' : 0 < (R / (2 * u)).re := by
  have h : R / (2 * u) = (1 / u * R) / 2 := by have := s.u0; field_simp
  rw [h]
  refine s.half_re (rot_re s.pui s.pui2.le s.pR ?_)
  have := s.pZ'
  have e : (1 / u * R) ^ 2 = ((4 : ℝ) : ℂ) * (R / (2 * u)) ^ 2 := by
    have := s.u0; push_cast; field_simp; try ring
  rw [e, Complex.re_ofReal_mul]; positivity

theorem pG : 0 < ((u * γ) ^ 2).re := by rw [mul_pow]; exact s.pg
theorem pGr : 0 < (u * γ).re := rot_re s.pu s.pu2.le s.pγ s.pG

theorem pGl {l : ℝ} (hl : 0 < l) : 0 < ((u * Γ l) ^ 2).re := by
  rw [mul_pow, s.hΓ l hl]
  have e : u ^ 2 * (a * (l : ℂ) ^ 2 + γ ^ 2) = ((l ^ 2 : ℝ) : ℂ) * (u ^ 2 * a) + u ^ 2 * γ ^ 2 := by
    push_cast; ring
  rw [e, Complex.add_re, Complex.re_ofReal_mul]
  have := s.pa; have := s.pg
  positivity
theorem pGlr {l : ℝ} (hl : 0 < l) : 0 < (u * Γ l).re := rot_re s.pu s.pu2.le (s.pΓ l hl) (s.pGl hl)

/-- Integrals over `t` on the left. -/
theorem left {l : ℝ} (hl : 0 < l) :
    let E := (Real.sqrt Real.pi : ℂ) * Complex.exp (-(Γ l * z))
    ∫ t in Ioi (0 : ℝ), kz 0 (u ^ 2 * (a * (l : ℂ) ^ 2 + γ ^ 2)) ((z / (2 * u)) ^ 2) t = E / (u * Γ l) ∧
    ∫ t in Ioi (0 : ℝ), kz 1 (u ^ 2 * (a * (l : ℂ) ^ 2 + γ ^ 2)) ((z / (2 * u)) ^ 2) t = E * (2 * u / z) ∧
    ∫ t in Ioi (0 : ℝ), kz 2 (u ^ 2 * (a * (l : ℂ) ^ 2 + γ ^ 2)) ((z / (2 * u)) ^ 2) t =
      E * (4 * u ^ 3 * (1 / z ^ 3 + Γ l / z ^ 2)) := by
  obtain ⟨k0, k1, k2, _⟩ := kz_roots (s.pGlr hl) s.pZr (s.pGl hl) s.pZ
  have hu := s.u0
  have hz := s.z0
  have hG := s.Γ0 hl
  rw [mul_pow, s.hΓ l hl, show 2 * ((z : ℂ) / (2 * u)) * (u * Γ l) = Γ l * z by field_simp] at k0 k1 k2
  refine ⟨k0, k1.trans ?_, k2.trans ?_⟩
  · field_simp
  · congr 1; field_simp; try ring

/-- Integrals over `t` on the right, for the vertical distance and for the distance. -/
theorem right :
    let E := (Real.sqrt Real.pi : ℂ) * Complex.exp (-(γ * R))
    let Ez := (Real.sqrt Real.pi : ℂ) * Complex.exp (-(γ * z))
    (∫ t in Ioi (0 : ℝ), kz 0 (u ^ 2 * γ ^ 2) ((z / (2 * u)) ^ 2) t = Ez / (u * γ) ∧
    ∫ t in Ioi (0 : ℝ), kz 1 (u ^ 2 * γ ^ 2) ((z / (2 * u)) ^ 2) t = Ez * (2 * u / z) ∧
    ∫ t in Ioi (0 : ℝ), kz 2 (u ^ 2 * γ ^ 2) ((z / (2 * u)) ^ 2) t =
      Ez * (4 * u ^ 3 * (1 / z ^ 3 + γ / z ^ 2))) ∧
    ∫ t in Ioi (0 : ℝ), kz 0 (u ^ 2 * γ ^ 2) ((R / (2 * u)) ^ 2) t = E / (u * γ) ∧
    ∫ t in Ioi (0 : ℝ), kz 1 (u ^ 2 * γ ^ 2) ((R / (2 * u)) ^ 2) t = E * (2 * u / R) ∧
    ∫ t in Ioi (0 : ℝ), kz 2 (u ^ 2 * γ ^ 2) ((R / (2 * u)) ^ 2) t =
      E * (4 * u ^ 3 * (1 / R ^ 3 + γ / R ^ 2)) ∧
    ∫ t in Ioi (0 : ℝ), kz 3 (u ^ 2 * γ ^ 2) ((R / (2 * u)) ^ 2) t =
      E * (8 * u ^ 5 * (3 / R ^ 5 + 3 * γ / R ^ 4 + γ ^ 2 / R ^ 3)) := by
  have hu := s.u0
  have hz := s.z0
  have hR := s.R0
  have hG := s.γ0
  constructor
  · obtain ⟨k0, k1, k2, _⟩ := kz_roots s.pGr s.pZr s.pG s.pZ
    rw [mul_pow, show 2 * ((z : ℂ) / (2 * u)) * (u * γ) = γ * z by field_simp] at k0 k1 k2
    refine ⟨k0, k1.trans ?_, k2.trans ?_⟩
    · field_simp
    · congr 1; field_simp; try ring
  · obtain ⟨k0, k1, k2, k3⟩ := kz_roots s.pGr s.pZr' s.pG s.pZ'
    rw [mul_pow, show 2 * (R / (2 * u)) * (u * γ) = γ * R by field_simp] at k0 k1 k2 k3
    refine ⟨k0, k1.trans ?_, k2.trans ?_, k3.trans ?_⟩
    · field_simp
    · congr 1; field_simp; try ring
    · congr 1; field_simp; try ring

theorem pat {t : ℝ} (ht : 0 < t) : 0 < (u ^ 2 * a * t).re := by
  rw [mul_comm, Complex.re_ofReal_mul]; exact mul_pos ht s.pa

/-- Adding the Gaussian factor to the integrand over `t`. -/
theorem shift (n m : ℕ) {t : ℝ} (ht : 0 < t) :
    kz n (u ^ 2 * γ ^ 2) ((z / (2 * u)) ^ 2) t * (Complex.exp (-(ρ : ℂ) ^ 2 / (4 * (u ^ 2 * a * t))) / (t : ℂ) ^ m) =
      kz (n + m) (u ^ 2 * γ ^ 2) ((R / (2 * u)) ^ 2) t := by
  have ht' : (t : ℂ) ≠ 0 := by exact_mod_cast ht.ne'
  have hu := s.u0
  have ha := s.a0
  unfold kz
  rw [← s.eZ', div_mul_div_comm, ← Complex.exp_add, pow_add]
  congr 1
  · congr 1; field_simp; ring
  · ring

theorem J0 (n : ℕ) : HasInt (fun l => (l : ℂ) ^ 1 * besselJ0 (l * ρ) *
      ∫ t in Ioi (0 : ℝ), kz n (u ^ 2 * (a * (l : ℂ) ^ 2 + γ ^ 2)) ((z / (2 * u)) ^ 2) t)
    (1 / (2 * (u ^ 2 * a)) * ∫ t in Ioi (0 : ℝ), kz (n + 1) (u ^ 2 * γ ^ 2) ((R / (2 * u)) ^ 2) t) := by
  refine (fub s.pa s.pg s.pZ n 1 (cJ0 ρ 1) (bJ0 ρ 1)).congr (fun _ _ => rfl) ?_
  rw [← integral_const_mul]
  refine setIntegral_congr_fun measurableSet_Ioi fun t ht => ?_
  have ht : 0 < t := ht
  have ht' : (t : ℂ) ≠ 0 := by exact_mod_cast ht.ne'
  have hu := s.u0
  have ha := s.a0
  rw [gau_J0 (s.pat ht), ← s.shift n 1 ht]
  field_simp

theorem J1 (n : ℕ) : HasInt (fun l => (l : ℂ) ^ 0 * besselJ1 (l * ρ) *
      ∫ t in Ioi (0 : ℝ), kz n (u ^ 2 * (a * (l : ℂ) ^ 2 + γ ^ 2)) ((z / (2 * u)) ^ 2) t)
    (1 / ρ * ((∫ t in Ioi (0 : ℝ), kz n (u ^ 2 * γ ^ 2) ((z / (2 * u)) ^ 2) t) -
      ∫ t in Ioi (0 : ℝ), kz n (u ^ 2 * γ ^ 2) ((R / (2 * u)) ^ 2) t)) := by
  refine (fub s.pa s.pg s.pZ n 0 (cJ1 ρ 0) (bJ1 ρ 0)).congr (fun _ _ => rfl) ?_
  have i1 : IntegrableOn (kz n (u ^ 2 * γ ^ 2) ((z / (2 * u)) ^ 2)) (Ioi 0) := kz_int n s.pg s.pZ
  have i2 : IntegrableOn (kz n (u ^ 2 * γ ^ 2) ((R / (2 * u)) ^ 2)) (Ioi 0) := kz_int n s.pg s.pZ'
  rw [← integral_sub i1 i2, ← integral_const_mul]
  refine setIntegral_congr_fun measurableSet_Ioi fun t ht => ?_
  have ht : 0 < t := ht
  have hr := s.ρ0
  rw [gau_J1_zero (s.pat ht) s.rpos.ne']
  have := s.shift n 0 ht
  rw [add_zero, pow_zero, div_one] at this
  rw [← this]
  field_simp

theorem J1' (n : ℕ) : HasInt (fun l => (l : ℂ) ^ 2 * besselJ1 (l * ρ) *
      ∫ t in Ioi (0 : ℝ), kz n (u ^ 2 * (a * (l : ℂ) ^ 2 + γ ^ 2)) ((z / (2 * u)) ^ 2) t)
    (ρ / (4 * (u ^ 2 * a) ^ 2) * ∫ t in Ioi (0 : ℝ), kz (n + 2) (u ^ 2 * γ ^ 2) ((R / (2 * u)) ^ 2) t) := by
  refine (fub s.pa s.pg s.pZ n 2 (cJ1 ρ 2) (bJ1 ρ 2)).congr (fun _ _ => rfl) ?_
  rw [← integral_const_mul]
  refine setIntegral_congr_fun measurableSet_Ioi fun t ht => ?_
  have ht : 0 < t := ht
  have ht' : (t : ℂ) ≠ 0 := by exact_mod_cast ht.ne'
  have hu := s.u0
  have ha := s.a0
  rw [gau_J1 (s.pat ht), ← s.shift n 2 ht]
  field_simp

theorem pi0 : ((Real.sqrt Real.pi : ℝ) : ℂ) ≠ 0 := by
  exact_mod_cast (Real.sqrt_pos.2 Real.pi_pos).ne'

/-- **Sommerfeld's identity.** -/
theorem A0 : HasInt (fun l => (l : ℂ) * besselJ0 (l * ρ) * (Complex.exp (-(Γ l * z)) / Γ l))
    (Complex.exp (-(γ * R)) / (a * R)) := by
  have hu := s.u0
  have ha := s.a0
  have hR := s.R0
  have hp := s.pi0
  refine ((s.J0 0).smul (u / (Real.sqrt Real.pi : ℝ))).congr (fun l hl => ?_) ?_
  · have hG := s.Γ0 hl
    rw [(s.left hl).1]; field_simp
  · rw [s.right.2.2.1]; field_simp

theorem A1 : HasInt (fun l => (l : ℂ) * besselJ0 (l * ρ) * Complex.exp (-(Γ l * z)))
    (z * Complex.exp (-(γ * R)) * (1 / R ^ 3 + γ / R ^ 2) / a) := by
  have hu := s.u0
  have ha := s.a0
  have hR := s.R0
  have hz := s.z0
  have hp := s.pi0
  refine ((s.J0 1).smul (z / (2 * u * (Real.sqrt Real.pi : ℝ)))).congr (fun l hl => ?_) ?_
  · rw [(s.left hl).2.1]; field_simp
  · rw [s.right.2.2.2.1]; field_simp; try ring

theorem A2 : HasInt (fun l => (l : ℂ) * besselJ0 (l * ρ) * (Γ l * Complex.exp (-(Γ l * z))))
    (Complex.exp (-(γ * R)) * (z ^ 2 * (3 / R ^ 5 + 3 * γ / R ^ 4 + γ ^ 2 / R ^ 3) -
      (1 / R ^ 3 + γ / R ^ 2)) / a) := by
  have hu := s.u0
  have ha := s.a0
  have hR := s.R0
  have hz := s.z0
  have hp := s.pi0
  refine (((s.J0 2).smul (z ^ 2 / (4 * u ^ 3 * (Real.sqrt Real.pi : ℝ)))).add (s.A1.smul (-1 / z))).congr
    (fun l hl => ?_) ?_
  · rw [(s.left hl).2.2]; field_simp; ring
  · rw [s.right.2.2.2.2]; field_simp; try ring

/-- The same with a factor `λ²`. -/
theorem A3 : HasInt (fun l => (l : ℂ) ^ 3 * besselJ0 (l * ρ) * (Complex.exp (-(Γ l * z)) / Γ l))
    (Complex.exp (-(γ * R)) * (z ^ 2 * (3 / R ^ 5 + 3 * γ / R ^ 4 + γ ^ 2 / R ^ 3) -
      (1 / R ^ 3 + γ / R ^ 2) - γ ^ 2 / R) / a ^ 2) := by
  have ha := s.a0
  have hR := s.R0
  refine ((s.A2.smul (1 / a)).add (s.A0.smul (-γ ^ 2 / a))).congr (fun l hl => ?_) ?_
  · have hG := s.Γ0 hl
    have h := s.hΓ l hl
    field_simp
    linear_combination (-(l : ℂ) * besselJ0 (l * ρ)) * h
  · field_simp; try ring

theorem B0 : HasInt (fun l => besselJ1 (l * ρ) * (Complex.exp (-(Γ l * z)) / Γ l))
    ((Complex.exp (-(γ * z)) - Complex.exp (-(γ * R))) / (γ * ρ)) := by
  have hu := s.u0
  have hg := s.γ0
  have hr := s.ρ0
  have hp := s.pi0
  refine ((s.J1 0).smul (u / (Real.sqrt Real.pi : ℝ))).congr (fun l hl => ?_) ?_
  · have hG := s.Γ0 hl
    rw [(s.left hl).1]; field_simp
  · rw [s.right.2.1, s.right.1.1]; field_simp

theorem B1 : HasInt (fun l => besselJ1 (l * ρ) * Complex.exp (-(Γ l * z)))
    ((Complex.exp (-(γ * z)) - z * Complex.exp (-(γ * R)) / R) / ρ) := by
  have hu := s.u0
  have hR := s.R0
  have hr := s.ρ0
  have hz := s.z0
  have hp := s.pi0
  refine ((s.J1 1).smul (z / (2 * u * (Real.sqrt Real.pi : ℝ)))).congr (fun l hl => ?_) ?_
  · rw [(s.left hl).2.1]; field_simp
  · rw [s.right.2.2.1, s.right.1.2.1]; field_simp; try ring

theorem B2 : HasInt (fun l => besselJ1 (l * ρ) * (Γ l * Complex.exp (-(Γ l * z))))
    ((γ * Complex.exp (-(γ * z)) + Complex.exp (-(γ * R)) * (1 / R - z ^ 2 * (1 / R ^ 3 + γ / R ^ 2))) / ρ) := by
  have hu := s.u0
  have hR := s.R0
  have hr := s.ρ0
  have hz := s.z0
  have hp := s.pi0
  refine (((s.J1 2).smul (z ^ 2 / (4 * u ^ 3 * (Real.sqrt Real.pi : ℝ)))).add (s.B1.smul (-1 / z))).congr
    (fun l hl => ?_) ?_
  · rw [(s.left hl).2.2]; field_simp; ring
  · rw [s.right.2.2.2.1, s.right.1.2.2]; field_simp; try ring

theorem C0 : HasInt (fun l => (l : ℂ) ^ 2 * besselJ1 (l * ρ) * (Complex.exp (-(Γ l * z)) / Γ l))
    (ρ * Complex.exp (-(γ * R)) * (1 / R ^ 3 + γ / R ^ 2) / a ^ 2) := by
  have hu := s.u0
  have ha := s.a0
  have hR := s.R0
  have hp := s.pi0
  refine ((s.J1' 0).smul (u / (Real.sqrt Real.pi : ℝ))).congr (fun l hl => ?_) ?_
  · have hG := s.Γ0 hl
    rw [(s.left hl).1]; field_simp
  · rw [s.right.2.2.2.1]; field_simp; try ring

theorem C1 : HasInt (fun l => (l : ℂ) ^ 2 * besselJ1 (l * ρ) * Complex.exp (-(Γ l * z)))
    (z * ρ * Complex.exp (-(γ * R)) * (3 / R ^ 5 + 3 * γ / R ^ 4 + γ ^ 2 / R ^ 3) / a ^ 2) := by
  have hu := s.u0
  have ha := s.a0
  have hR := s.R0
  have hz := s.z0
  have hp := s.pi0
  refine ((s.J1' 1).smul (z / (2 * u * (Real.sqrt Real.pi : ℝ)))).congr (fun l hl => ?_) ?_
  · rw [(s.left hl).2.1]; field_simp
  · rw [s.right.2.2.2.2]; field_simp; try ring

end Somm
end Verif.Lemmas
