import Mathlib.Analysis.SpecialFunctions.ExpDeriv
import Mathlib.Analysis.Calculus.Deriv.Inv
import Mathlib.Analysis.Calculus.Deriv.Pow
import Verif.Spec.Curl

/-!
# The closed-form fullspace fields and their derivatives

Fields are written with `R² = ρ² + κ z²`, `o = ρ²`, `G` the wavenumber.
-/

set_option linter.unusedSimpArgs false
set_option linter.unusedVariables false

namespace Verif.Lemmas.Full
open Complex

section
variable (G κ : ℂ)

/-- `exp(-ΓR)` -/
noncomputable def e (R : ℂ) : ℂ := exp (-G * R)
noncomputable def al (R o : ℂ) : ℂ :=
  e G R * (3 / (G * R ^ 5) + 3 / R ^ 4 + G / R ^ 3 - G / (R * o) - 2 / o ^ 2)
noncomputable def alR (R o : ℂ) : ℂ :=
  -G * al G R o + e G R * (-15 / (G * R ^ 6) - 12 / R ^ 5 - 3 * G / R ^ 4 + G / (R ^ 2 * o))
noncomputable def alo (R o : ℂ) : ℂ := e G R * (G / (R * o ^ 2) + 4 / o ^ 3)
noncomputable def be (R o : ℂ) : ℂ := e G R * (-1 / (G * R ^ 3) - 1 / R ^ 2 + 1 / o)
noncomputable def beR (R o : ℂ) : ℂ :=
  -G * be G R o + e G R * (3 / (G * R ^ 4) + 2 / R ^ 3)
noncomputable def beo (R o : ℂ) : ℂ := e G R * (-1 / o ^ 2)
/-- vertical electric field of a horizontal dipole, without `κ z x` -/
noncomputable def ch (R : ℂ) : ℂ := e G R * (3 / R ^ 2 + 3 * G / R + G ^ 2) / (R ^ 3 * G)
noncomputable def chR (R : ℂ) : ℂ :=
  -G * ch G R + e G R * (-15 / R ^ 6 - 12 * G / R ^ 5 - 3 * G ^ 2 / R ^ 4) / G
noncomputable def h (R o : ℂ) : ℂ := κ * G * e G R * (2 / o + G / R + 1 / R ^ 2) / (o * R)
noncomputable def hR (R o : ℂ) : ℂ :=
  -G * h G κ R o + κ * G * e G R * (-2 / (o * R ^ 2) - 2 * G / R ^ 3 - 3 / R ^ 4) / o
noncomputable def ho (R o : ℂ) : ℂ :=
  κ * G * e G R * (-4 / (o ^ 3 * R) - G / (R ^ 2 * o ^ 2) - 1 / (R ^ 3 * o ^ 2))
noncomputable def m (R o : ℂ) : ℂ := κ * G * e G R / (o * R)
noncomputable def mR (R o : ℂ) : ℂ := -G * m G κ R o - κ * G * e G R / (o * R ^ 2)
noncomputable def mo (R o : ℂ) : ℂ := -κ * G * e G R / (o ^ 2 * R)
/-- TE: electric field of a horizontal dipole -/
noncomputable def al' (R o : ℂ) : ℂ := e G R * (G / (R * o) + 2 / o ^ 2)
noncomputable def al'R (R o : ℂ) : ℂ := -G * al' G R o + e G R * (-G / (R ^ 2 * o))
noncomputable def al'o (R o : ℂ) : ℂ := e G R * (-G / (R * o ^ 2) - 4 / o ^ 3)
noncomputable def be' (R o : ℂ) : ℂ := e G R * (-G / R - 1 / o)
noncomputable def be'R (R o : ℂ) : ℂ := -G * be' G R o + e G R * (G / R ^ 2)
noncomputable def be'o (R o : ℂ) : ℂ := e G R * (1 / o ^ 2)
/-- vertical magnetic field of a horizontal dipole, without `y` -/
noncomputable def k (R : ℂ) : ℂ := κ * G * (G + 1 / R) * e G R / R ^ 2
noncomputable def kR (R : ℂ) : ℂ :=
  -G * k G κ R + κ * G * e G R * (-2 * G / R ^ 3 - 3 / R ^ 4)
noncomputable def nn (R : ℂ) : ℂ := e G R * (1 / R ^ 2 + G / R + G ^ 2) / (R * G)
noncomputable def nnR (R : ℂ) : ℂ :=
  -G * nn G R + e G R * (-3 / R ^ 4 - 2 * G / R ^ 3 - G ^ 2 / R ^ 2) / G

variable {G κ} {R o : ℝ → ℂ} {dR d : ℂ} {t : ℝ}

theorem e_deriv (j : HasDerivAt R dR t) : HasDerivAt (fun t => e G (R t)) (-G * dR * e G (R t)) t :=
  ((j.const_mul (-G)).cexp).congr_deriv (by rw [e]; ring)

/-- derivative of `1/R^a/o^b` -/
theorem mono_deriv (j : HasDerivAt R dR t) (h' : HasDerivAt o d t) (r : R t ≠ 0) (q : o t ≠ 0)
    (c : ℂ) (a b : ℕ) :
    HasDerivAt (fun t => c * ((R t)⁻¹ ^ a * (o t)⁻¹ ^ b))
      (c * (-(a * (R t)⁻¹ ^ (a + 1) * (o t)⁻¹ ^ b * dR) - b * (R t)⁻¹ ^ a * (o t)⁻¹ ^ (b + 1) * d)) t := by
  have i1 := (j.inv r).pow a
  have i2 := (h'.inv q).pow b
  refine ((i1.mul i2).const_mul c).congr_deriv ?_
  simp only [Pi.inv_apply]
  congr 1
  rcases a with _ | a <;> rcases b with _ | b <;> simp <;> field_simp <;> ring

theorem al_deriv (j : HasDerivAt R dR t) (h' : HasDerivAt o d t) (r : R t ≠ 0) (q : o t ≠ 0) (g : G ≠ 0) :
    HasDerivAt (fun t => al G (R t) (o t))
      (alR G (R t) (o t) * dR + alo G (R t) (o t) * d) t := by
  have key := (e_deriv (G := G) j).mul ((((((mono_deriv j h' r q (3 / G) 5 0)).add (mono_deriv j h' r q (3) 4 0)).add (mono_deriv j h' r q (G) 3 0)).add (mono_deriv j h' r q (-G) 1 1)).add (mono_deriv j h' r q (-2) 0 2))
  have fn : (fun t => al G (R t) (o t)) = fun t => e G (R t) * ((3 / G) * ((R t)⁻¹ ^ 5 * (o t)⁻¹ ^ 0) + (3) * ((R t)⁻¹ ^ 4 * (o t)⁻¹ ^ 0) + (G) * ((R t)⁻¹ ^ 3 * (o t)⁻¹ ^ 0) + (-G) * ((R t)⁻¹ ^ 1 * (o t)⁻¹ ^ 1) + (-2) * ((R t)⁻¹ ^ 0 * (o t)⁻¹ ^ 2)) := by
    funext t; simp only [al, div_eq_mul_inv, mul_inv, inv_pow]; ring
  rw [fn]
  refine key.congr_deriv ?_
  simp only [alR, alo, al, Pi.add_apply, Nat.cast_ofNat, Nat.cast_one, Nat.cast_zero,
    Nat.reduceAdd, inv_pow, pow_zero, pow_one, inv_one, mul_one, zero_mul, mul_zero, sub_zero, zero_sub, neg_zero]
  field_simp
  ring

theorem be_deriv (j : HasDerivAt R dR t) (h' : HasDerivAt o d t) (r : R t ≠ 0) (q : o t ≠ 0) (g : G ≠ 0) :
    HasDerivAt (fun t => be G (R t) (o t))
      (beR G (R t) (o t) * dR + beo G (R t) (o t) * d) t := by
  have key := (e_deriv (G := G) j).mul ((((mono_deriv j h' r q (-1 / G) 3 0)).add (mono_deriv j h' r q (-1) 2 0)).add (mono_deriv j h' r q (1) 0 1))
  have fn : (fun t => be G (R t) (o t)) = fun t => e G (R t) * ((-1 / G) * ((R t)⁻¹ ^ 3 * (o t)⁻¹ ^ 0) + (-1) * ((R t)⁻¹ ^ 2 * (o t)⁻¹ ^ 0) + (1) * ((R t)⁻¹ ^ 0 * (o t)⁻¹ ^ 1)) := by
    funext t; simp only [be, div_eq_mul_inv, mul_inv, inv_pow]; ring
  rw [fn]
  refine key.congr_deriv ?_
  simp only [beR, beo, be, Pi.add_apply, Nat.cast_ofNat, Nat.cast_one, Nat.cast_zero,
    Nat.reduceAdd, inv_pow, pow_zero, pow_one, inv_one, mul_one, zero_mul, mul_zero, sub_zero, zero_sub, neg_zero]
  field_simp
  ring

theorem h_deriv (j : HasDerivAt R dR t) (h' : HasDerivAt o d t) (r : R t ≠ 0) (q : o t ≠ 0) (g : G ≠ 0) :
    HasDerivAt (fun t => h G κ (R t) (o t))
      (hR G κ (R t) (o t) * dR + ho G κ (R t) (o t) * d) t := by
  have key := (e_deriv (G := G) j).mul ((((mono_deriv j h' r q (κ * G * 2) 1 2)).add (mono_deriv j h' r q (κ * G * G) 2 1)).add (mono_deriv j h' r q (κ * G) 3 1))
  have fn : (fun t => h G κ (R t) (o t)) = fun t => e G (R t) * ((κ * G * 2) * ((R t)⁻¹ ^ 1 * (o t)⁻¹ ^ 2) + (κ * G * G) * ((R t)⁻¹ ^ 2 * (o t)⁻¹ ^ 1) + (κ * G) * ((R t)⁻¹ ^ 3 * (o t)⁻¹ ^ 1)) := by
    funext t; simp only [h, div_eq_mul_inv, mul_inv, inv_pow]; ring
  rw [fn]
  refine key.congr_deriv ?_
  simp only [hR, ho, h, Pi.add_apply, Nat.cast_ofNat, Nat.cast_one, Nat.cast_zero,
    Nat.reduceAdd, inv_pow, pow_zero, pow_one, inv_one, mul_one, zero_mul, mul_zero, sub_zero, zero_sub, neg_zero]
  field_simp
  ring

theorem m_deriv (j : HasDerivAt R dR t) (h' : HasDerivAt o d t) (r : R t ≠ 0) (q : o t ≠ 0) (g : G ≠ 0) :
    HasDerivAt (fun t => m G κ (R t) (o t))
      (mR G κ (R t) (o t) * dR + mo G κ (R t) (o t) * d) t := by
  have key := (e_deriv (G := G) j).mul ((mono_deriv j h' r q (κ * G) 1 1))
  have fn : (fun t => m G κ (R t) (o t)) = fun t => e G (R t) * ((κ * G) * ((R t)⁻¹ ^ 1 * (o t)⁻¹ ^ 1)) := by
    funext t; simp only [m, div_eq_mul_inv, mul_inv, inv_pow]; ring
  rw [fn]
  refine key.congr_deriv ?_
  simp only [mR, mo, m, Pi.add_apply, Nat.cast_ofNat, Nat.cast_one, Nat.cast_zero,
    Nat.reduceAdd, inv_pow, pow_zero, pow_one, inv_one, mul_one, zero_mul, mul_zero, sub_zero, zero_sub, neg_zero]
  field_simp
  ring

theorem al'_deriv (j : HasDerivAt R dR t) (h' : HasDerivAt o d t) (r : R t ≠ 0) (q : o t ≠ 0) (g : G ≠ 0) :
    HasDerivAt (fun t => al' G (R t) (o t))
      (al'R G (R t) (o t) * dR + al'o G (R t) (o t) * d) t := by
  have key := (e_deriv (G := G) j).mul (((mono_deriv j h' r q (G) 1 1)).add (mono_deriv j h' r q (2) 0 2))
  have fn : (fun t => al' G (R t) (o t)) = fun t => e G (R t) * ((G) * ((R t)⁻¹ ^ 1 * (o t)⁻¹ ^ 1) + (2) * ((R t)⁻¹ ^ 0 * (o t)⁻¹ ^ 2)) := by
    funext t; simp only [al', div_eq_mul_inv, mul_inv, inv_pow]; ring
  rw [fn]
  refine key.congr_deriv ?_
  simp only [al'R, al'o, al', Pi.add_apply, Nat.cast_ofNat, Nat.cast_one, Nat.cast_zero,
    Nat.reduceAdd, inv_pow, pow_zero, pow_one, inv_one, mul_one, zero_mul, mul_zero, sub_zero, zero_sub, neg_zero]
  field_simp
  ring

theorem be'_deriv (j : HasDerivAt R dR t) (h' : HasDerivAt o d t) (r : R t ≠ 0) (q : o t ≠ 0) (g : G ≠ 0) :
    HasDerivAt (fun t => be' G (R t) (o t))
      (be'R G (R t) (o t) * dR + be'o G (R t) (o t) * d) t := by
  have key := (e_deriv (G := G) j).mul (((mono_deriv j h' r q (-G) 1 0)).add (mono_deriv j h' r q (-1) 0 1))
  have fn : (fun t => be' G (R t) (o t)) = fun t => e G (R t) * ((-G) * ((R t)⁻¹ ^ 1 * (o t)⁻¹ ^ 0) + (-1) * ((R t)⁻¹ ^ 0 * (o t)⁻¹ ^ 1)) := by
    funext t; simp only [be', div_eq_mul_inv, mul_inv, inv_pow]; ring
  rw [fn]
  refine key.congr_deriv ?_
  simp only [be'R, be'o, be', Pi.add_apply, Nat.cast_ofNat, Nat.cast_one, Nat.cast_zero,
    Nat.reduceAdd, inv_pow, pow_zero, pow_one, inv_one, mul_one, zero_mul, mul_zero, sub_zero, zero_sub, neg_zero]
  field_simp
  ring

theorem ch_deriv (j : HasDerivAt R dR t) (r : R t ≠ 0) (g : G ≠ 0) :
    HasDerivAt (fun t => ch G (R t)) (chR G (R t) * dR) t := by
  have key := (e_deriv (G := G) j).mul ((((mono_deriv j (hasDerivAt_const t (1 : ℂ)) r one_ne_zero (3 / G) 5 0)).add (mono_deriv j (hasDerivAt_const t (1 : ℂ)) r one_ne_zero (3) 4 0)).add (mono_deriv j (hasDerivAt_const t (1 : ℂ)) r one_ne_zero (G) 3 0))
  have fn : (fun t => ch G (R t)) = fun t => e G (R t) * ((3 / G) * ((R t)⁻¹ ^ 5 * (1 : ℂ)⁻¹ ^ 0) + (3) * ((R t)⁻¹ ^ 4 * (1 : ℂ)⁻¹ ^ 0) + (G) * ((R t)⁻¹ ^ 3 * (1 : ℂ)⁻¹ ^ 0)) := by
    funext t
    simp only [ch]
    by_cases hz : R t = 0
    · simp [hz]
    · field_simp
      try ring
  rw [fn]
  refine key.congr_deriv ?_
  simp only [chR, ch, Pi.add_apply, Nat.cast_ofNat, Nat.cast_one, Nat.cast_zero,
    Nat.reduceAdd, inv_pow, pow_zero, pow_one, inv_one, mul_one, zero_mul, mul_zero, sub_zero, zero_sub, neg_zero]
  field_simp
  ring

theorem nn_deriv (j : HasDerivAt R dR t) (r : R t ≠ 0) (g : G ≠ 0) :
    HasDerivAt (fun t => nn G (R t)) (nnR G (R t) * dR) t := by
  have key := (e_deriv (G := G) j).mul ((((mono_deriv j (hasDerivAt_const t (1 : ℂ)) r one_ne_zero (1 / G) 3 0)).add (mono_deriv j (hasDerivAt_const t (1 : ℂ)) r one_ne_zero (1) 2 0)).add (mono_deriv j (hasDerivAt_const t (1 : ℂ)) r one_ne_zero (G) 1 0))
  have fn : (fun t => nn G (R t)) = fun t => e G (R t) * ((1 / G) * ((R t)⁻¹ ^ 3 * (1 : ℂ)⁻¹ ^ 0) + (1) * ((R t)⁻¹ ^ 2 * (1 : ℂ)⁻¹ ^ 0) + (G) * ((R t)⁻¹ ^ 1 * (1 : ℂ)⁻¹ ^ 0)) := by
    funext t
    simp only [nn]
    by_cases hz : R t = 0
    · simp [hz]
    · field_simp
      try ring
  rw [fn]
  refine key.congr_deriv ?_
  simp only [nnR, nn, Pi.add_apply, Nat.cast_ofNat, Nat.cast_one, Nat.cast_zero,
    Nat.reduceAdd, inv_pow, pow_zero, pow_one, inv_one, mul_one, zero_mul, mul_zero, sub_zero, zero_sub, neg_zero]
  field_simp
  ring

theorem k_deriv (j : HasDerivAt R dR t) (r : R t ≠ 0) (g : G ≠ 0) :
    HasDerivAt (fun t => k G κ (R t)) (kR G κ (R t) * dR) t := by
  have key := (e_deriv (G := G) j).mul (((mono_deriv j (hasDerivAt_const t (1 : ℂ)) r one_ne_zero (κ * G * G) 2 0)).add (mono_deriv j (hasDerivAt_const t (1 : ℂ)) r one_ne_zero (κ * G) 3 0))
  have fn : (fun t => k G κ (R t)) = fun t => e G (R t) * ((κ * G * G) * ((R t)⁻¹ ^ 2 * (1 : ℂ)⁻¹ ^ 0) + (κ * G) * ((R t)⁻¹ ^ 3 * (1 : ℂ)⁻¹ ^ 0)) := by
    funext t
    simp only [k]
    by_cases hz : R t = 0
    · simp [hz]
    · field_simp
      try ring
  rw [fn]
  refine key.congr_deriv ?_
  simp only [kR, k, Pi.add_apply, Nat.cast_ofNat, Nat.cast_one, Nat.cast_zero,
    Nat.reduceAdd, inv_pow, pow_zero, pow_one, inv_one, mul_one, zero_mul, mul_zero, sub_zero, zero_sub, neg_zero]
  field_simp
  ring

end

/-- `R` behaves like `√(x²+y²+κz²)` near a point off the axis. -/
structure Radius (κ : ℂ) (R : ℝ → ℝ → ℝ → ℂ) (x y z : ℝ) : Prop where
  sq : R x y z ^ 2 = x ^ 2 + y ^ 2 + κ * z ^ 2
  ne : R x y z ≠ 0
  axis : (x : ℂ) ^ 2 + (y : ℂ) ^ 2 ≠ 0
  dx : HasDerivAt (fun t => R t y z) (x / R x y z) x
  dy : HasDerivAt (fun t => R x t z) (y / R x y z) y
  dz : HasDerivAt (fun t => R x y t) (κ * z / R x y z) z

/-- squared distance from the axis -/
noncomputable def oo (x y : ℝ) : ℂ := (x : ℂ) ^ 2 + (y : ℂ) ^ 2

theorem real_deriv (x : ℝ) : HasDerivAt (fun t : ℝ => (t : ℂ)) 1 x := by
  simpa using (hasDerivAt_id x).ofReal_comp

theorem oo_dx (x y : ℝ) : HasDerivAt (fun t => oo t y) (2 * x) x :=
  (((real_deriv x).pow 2).add_const _).congr_deriv (by simp)

theorem oo_dy (x y : ℝ) : HasDerivAt (fun t => oo x t) (2 * y) y :=
  (((real_deriv y).pow 2).const_add _).congr_deriv (by simp)

open Spec

section fields
variable (G κ p q : ℂ) (R : ℝ → ℝ → ℝ → ℂ)

/-- TM part of the electric field of a horizontal dipole `(p, q)`. -/
noncomputable def tmE : Vec where
  x := fun x y z => al G (R x y z) (oo x y) * (p * x + q * y) * x + be G (R x y z) (oo x y) * p
  y := fun x y z => al G (R x y z) (oo x y) * (p * x + q * y) * y + be G (R x y z) (oo x y) * q
  z := fun x y z => κ * z * (p * x + q * y) * ch G (R x y z)
noncomputable def tmH : Vec where
  x := fun x y z => z * ((p * x + q * y) * y * h G κ (R x y z) (oo x y) - q * m G κ (R x y z) (oo x y))
  y := fun x y z => z * (-((p * x + q * y) * x * h G κ (R x y z) (oo x y)) + p * m G κ (R x y z) (oo x y))
  z := fun _ _ _ => 0
/-- TE part. -/
noncomputable def teE : Vec where
  x := fun x y z => al' G (R x y z) (oo x y) * (p * x + q * y) * x + be' G (R x y z) (oo x y) * p
  y := fun x y z => al' G (R x y z) (oo x y) * (p * x + q * y) * y + be' G (R x y z) (oo x y) * q
  z := fun _ _ _ => 0
noncomputable def teH : Vec where
  x := fun x y z => z * (-((p * y - q * x) * x * h G κ (R x y z) (oo x y)) - q * m G κ (R x y z) (oo x y))
  y := fun x y z => z * (-((p * y - q * x) * y * h G κ (R x y z) (oo x y)) + p * m G κ (R x y z) (oo x y))
  z := fun x y z => (p * y - q * x) * k G κ (R x y z)

/-- Vertical dipole. -/
noncomputable def vE : Vec where
  x := fun x y z => κ * z * x * ch G (R x y z)
  y := fun x y z => κ * z * y * ch G (R x y z)
  z := fun x y z => κ * (κ * z ^ 2 * ch G (R x y z) - nn G (R x y z))
noncomputable def vH : Vec where
  x := fun x y z => -(y * k G κ (R x y z))
  y := fun x y z => x * k G κ (R x y z)
  z := fun _ _ _ => 0

end fields

variable {G κ p q : ℂ} {R : ℝ → ℝ → ℝ → ℂ} {x y z : ℝ}

theorem tmE_curl (r : Radius κ R x y z) (g : G ≠ 0) :
    (tmE G κ p q R).HasCurl x y z (-(tmH G κ p q R).x x y z) (-(tmH G κ p q R).y x y z) 0 := by
  have X := real_deriv x
  have Y := real_deriv y
  have Z := real_deriv z
  have o0 : oo x y ≠ 0 := r.axis
  refine ⟨_, _, _, _, _, _,
    ((((Y.const_mul q).const_add (p * x)).const_mul (κ * z)).mul (ch_deriv r.dy r.ne g)),
    ((((al_deriv r.dz (hasDerivAt_const z (oo x y)) r.ne o0 g).mul_const _).mul_const _).add
      ((be_deriv r.dz (hasDerivAt_const z (oo x y)) r.ne o0 g).mul_const q)),
    ((((al_deriv r.dz (hasDerivAt_const z (oo x y)) r.ne o0 g).mul_const _).mul_const _).add
      ((be_deriv r.dz (hasDerivAt_const z (oo x y)) r.ne o0 g).mul_const p)),
    ((((X.const_mul p).add_const (q * y)).const_mul (κ * z)).mul (ch_deriv r.dx r.ne g)),
    ((((al_deriv r.dx (oo_dx x y) r.ne o0 g).mul ((X.const_mul p).add_const (q * y))).mul_const _).add
      ((be_deriv r.dx (oo_dx x y) r.ne o0 g).mul_const q)),
    ((((al_deriv r.dy (oo_dy x y) r.ne o0 g).mul ((Y.const_mul q).const_add (p * x))).mul_const _).add
      ((be_deriv r.dy (oo_dy x y) r.ne o0 g).mul_const p)), ?_, ?_, ?_⟩
  all_goals
    try simp only [tmH]
    have hR := r.ne
    have hs := r.sq
    have ho : (x : ℂ) ^ 2 + (y : ℂ) ^ 2 = oo x y := rfl
    generalize R x y z = R at *
    generalize oo x y = o at *
    simp only [al, be, ch, alR, beR, chR, alo, beo, h, m]
    generalize e G R = e
    field_simp
    ring

theorem tmH_curl (r : Radius κ R x y z) (g : G ≠ 0) :
    (tmH G κ p q R).HasCurl x y z (G ^ 2 * κ * (tmE G κ p q R).x x y z)
      (G ^ 2 * κ * (tmE G κ p q R).y x y z) (G ^ 2 * (tmE G κ p q R).z x y z) := by
  have X := real_deriv x
  have Y := real_deriv y
  have Z := real_deriv z
  have o0 : oo x y ≠ 0 := r.axis
  refine ⟨_, _, _, _, _, _,
    hasDerivAt_const _ _,
    Z.mul ((((h_deriv r.dz (hasDerivAt_const z (oo x y)) r.ne o0 g).const_mul _).neg).add
      ((m_deriv r.dz (hasDerivAt_const z (oo x y)) r.ne o0 g).const_mul _)),
    Z.mul (((h_deriv r.dz (hasDerivAt_const z (oo x y)) r.ne o0 g).const_mul _).sub
      ((m_deriv r.dz (hasDerivAt_const z (oo x y)) r.ne o0 g).const_mul _)),
    hasDerivAt_const _ _,
    ((((((X.const_mul p).add_const (q * y)).mul X).mul (h_deriv r.dx (oo_dx x y) r.ne o0 g)).neg).add
      ((m_deriv r.dx (oo_dx x y) r.ne o0 g).const_mul p)).const_mul _,
    (((((Y.const_mul q).const_add (p * x)).mul Y).mul (h_deriv r.dy (oo_dy x y) r.ne o0 g)).sub
      ((m_deriv r.dy (oo_dy x y) r.ne o0 g).const_mul q)).const_mul _, ?_, ?_, ?_⟩
  all_goals
    simp only [tmE, Pi.add_apply, Pi.sub_apply, Pi.neg_apply, Pi.mul_apply]
    have nR := r.ne
    have hs := r.sq
    have hxy : (x : ℂ) ^ 2 + (y : ℂ) ^ 2 = oo x y := rfl
    rw [hxy] at hs
    generalize R x y z = R at *
    generalize oo x y = o at *
  · linear_combination (norm := skip)
      ((-((p * x + q * y) * x * hR G κ R o) + p * mR G κ R o) / R) * hs
    simp only [al, be, hR, mR, ho, mo, h, m]
    field_simp
    ring
  · linear_combination (norm := skip)
      (-((p * x + q * y) * y * hR G κ R o - q * mR G κ R o) / R) * hs
    simp only [al, be, hR, mR, ho, mo, h, m]
    field_simp
    ring
  · linear_combination (norm := skip)
      (-z * (p * x + q * y) * (hR G κ R o / R + 2 * ho G κ R o)) * hxy
    simp only [ch, hR, mR, ho, mo, h, m]
    field_simp
    ring

theorem teE_curl (r : Radius κ R x y z) (g : G ≠ 0) (hk : κ ≠ 0) :
    (teE G p q R).HasCurl x y z (-(teH G κ p q R).x x y z) (-(teH G κ p q R).y x y z)
      (-((teH G κ p q R).z x y z / κ)) := by
  have X := real_deriv x
  have Y := real_deriv y
  have Z := real_deriv z
  have o0 : oo x y ≠ 0 := r.axis
  refine ⟨_, _, _, _, _, _,
    hasDerivAt_const _ _,
    ((((al'_deriv r.dz (hasDerivAt_const z (oo x y)) r.ne o0 g).mul_const _).mul_const _).add
      ((be'_deriv r.dz (hasDerivAt_const z (oo x y)) r.ne o0 g).mul_const q)),
    ((((al'_deriv r.dz (hasDerivAt_const z (oo x y)) r.ne o0 g).mul_const _).mul_const _).add
      ((be'_deriv r.dz (hasDerivAt_const z (oo x y)) r.ne o0 g).mul_const p)),
    hasDerivAt_const _ _,
    ((((al'_deriv r.dx (oo_dx x y) r.ne o0 g).mul ((X.const_mul p).add_const (q * y))).mul_const _).add
      ((be'_deriv r.dx (oo_dx x y) r.ne o0 g).mul_const q)),
    ((((al'_deriv r.dy (oo_dy x y) r.ne o0 g).mul ((Y.const_mul q).const_add (p * x))).mul_const _).add
      ((be'_deriv r.dy (oo_dy x y) r.ne o0 g).mul_const p)), ?_, ?_, ?_⟩
  all_goals
    simp only [teH, Pi.add_apply, Pi.sub_apply, Pi.neg_apply, Pi.mul_apply]
    have nR := r.ne
    have hs := r.sq
    have hxy : (x : ℂ) ^ 2 + (y : ℂ) ^ 2 = oo x y := rfl
    rw [hxy] at hs
    generalize R x y z = R at *
    generalize oo x y = o at *
  · linear_combination (norm := skip) (q * z * h G κ R o) * hxy
    simp only [al, be, hR, mR, ho, mo, h, m, al', be', al'R, al'o, be'R, be'o, k, kR, ch, chR, nn, nnR]
    field_simp
    ring
  · linear_combination (norm := skip) (-(p * z * h G κ R o)) * hxy
    simp only [al, be, hR, mR, ho, mo, h, m, al', be', al'R, al'o, be'R, be'o, k, kR, ch, chR, nn, nnR]
    field_simp
    ring
  · simp only [al, be, hR, mR, ho, mo, h, m, al', be', al'R, al'o, be'R, be'o, k, kR, ch, chR]
    field_simp
    ring

theorem teH_curl (r : Radius κ R x y z) (g : G ≠ 0) :
    (teH G κ p q R).HasCurl x y z (G ^ 2 * κ * (teE G p q R).x x y z)
      (G ^ 2 * κ * (teE G p q R).y x y z) 0 := by
  have X := real_deriv x
  have Y := real_deriv y
  have Z := real_deriv z
  have o0 : oo x y ≠ 0 := r.axis
  refine ⟨_, _, _, _, _, _,
    (((Y.const_mul p).sub_const (q * x)).mul (k_deriv r.dy r.ne g)),
    Z.mul ((((h_deriv r.dz (hasDerivAt_const z (oo x y)) r.ne o0 g).const_mul _).neg).add
      ((m_deriv r.dz (hasDerivAt_const z (oo x y)) r.ne o0 g).const_mul _)),
    Z.mul ((((h_deriv r.dz (hasDerivAt_const z (oo x y)) r.ne o0 g).const_mul _).neg).sub
      ((m_deriv r.dz (hasDerivAt_const z (oo x y)) r.ne o0 g).const_mul _)),
    (((X.const_mul q).const_sub (p * y)).mul (k_deriv r.dx r.ne g)),
    (((((((X.const_mul q).const_sub (p * y)).mul_const (y : ℂ)).mul
      (h_deriv r.dx (oo_dx x y) r.ne o0 g)).neg).add
      ((m_deriv r.dx (oo_dx x y) r.ne o0 g).const_mul p)).const_mul _),
    (((((((Y.const_mul p).sub_const (q * x)).mul_const (x : ℂ)).mul
      (h_deriv r.dy (oo_dy x y) r.ne o0 g)).neg).sub
      ((m_deriv r.dy (oo_dy x y) r.ne o0 g).const_mul q)).const_mul _), ?_, ?_, ?_⟩
  all_goals
    try simp only [teE, Pi.add_apply, Pi.sub_apply, Pi.neg_apply, Pi.mul_apply]
    have nR := r.ne
    have hs := r.sq
    have hxy : (x : ℂ) ^ 2 + (y : ℂ) ^ 2 = oo x y := rfl
    rw [hxy] at hs
    generalize R x y z = R at *
    generalize oo x y = o at *
  · linear_combination (norm := skip)
      ((-((p * y - q * x) * y * hR G κ R o) + p * mR G κ R o) / R) * hs +
      (-(G ^ 2 * κ * al' G R o * p)) * hxy
    simp only [al, be, hR, mR, ho, mo, h, m, al', be', al'R, al'o, be'R, be'o, k, kR, ch, chR, nn, nnR]
    field_simp
    ring
  · linear_combination (norm := skip)
      (-(-((p * y - q * x) * x * hR G κ R o) - q * mR G κ R o) / R) * hs +
      (-(G ^ 2 * κ * al' G R o * q)) * hxy
    simp only [al, be, hR, mR, ho, mo, h, m, al', be', al'R, al'o, be'R, be'o, k, kR, ch, chR, nn, nnR]
    field_simp
    ring
  · simp only [al, be, hR, mR, ho, mo, h, m, al', be', al'R, al'o, be'R, be'o, k, kR, ch, chR]
    field_simp
    ring

theorem vE_curl (r : Radius κ R x y z) (g : G ≠ 0) :
    (vE G κ R).HasCurl x y z (-(vH G κ R).x x y z) (-(vH G κ R).y x y z) 0 := by
  have X := real_deriv x
  have Y := real_deriv y
  have Z := real_deriv z
  have o0 : oo x y ≠ 0 := r.axis
  refine ⟨_, _, _, _, _, _,
    (((ch_deriv r.dy r.ne g).const_mul (κ * z ^ 2)).sub (nn_deriv r.dy r.ne g)).const_mul κ,
    (((Z.const_mul κ).mul_const (y : ℂ)).mul (ch_deriv r.dz r.ne g)),
    (((Z.const_mul κ).mul_const (x : ℂ)).mul (ch_deriv r.dz r.ne g)),
    (((ch_deriv r.dx r.ne g).const_mul (κ * z ^ 2)).sub (nn_deriv r.dx r.ne g)).const_mul κ,
    (ch_deriv r.dx r.ne g).const_mul (κ * z * y),
    (ch_deriv r.dy r.ne g).const_mul (κ * z * x), ?_, ?_, ?_⟩
  all_goals
    try simp only [vH]
    have nR := r.ne
    have hs := r.sq
    have hxy : (x : ℂ) ^ 2 + (y : ℂ) ^ 2 = oo x y := rfl
    rw [hxy] at hs
    generalize R x y z = R at *
    generalize oo x y = o at *
    simp only [al, be, hR, mR, ho, mo, h, m, al', be', al'R, al'o, be'R, be'o, k, kR, ch, chR, nn, nnR]
    field_simp
    ring

theorem vH_curl (r : Radius κ R x y z) (g : G ≠ 0) :
    (vH G κ R).HasCurl x y z (G ^ 2 * κ * (vE G κ R).x x y z)
      (G ^ 2 * κ * (vE G κ R).y x y z) (G ^ 2 * (vE G κ R).z x y z) := by
  have X := real_deriv x
  have Y := real_deriv y
  have Z := real_deriv z
  have o0 : oo x y ≠ 0 := r.axis
  refine ⟨_, _, _, _, _, _,
    hasDerivAt_const _ _,
    (k_deriv r.dz r.ne g).const_mul (x : ℂ),
    ((k_deriv r.dz r.ne g).const_mul (y : ℂ)).neg,
    hasDerivAt_const _ _,
    X.mul (k_deriv r.dx r.ne g),
    (Y.mul (k_deriv r.dy r.ne g)).neg, ?_, ?_, ?_⟩
  all_goals
    simp only [vE, Pi.add_apply, Pi.sub_apply, Pi.neg_apply, Pi.mul_apply]
    have nR := r.ne
    have hs := r.sq
    have hxy : (x : ℂ) ^ 2 + (y : ℂ) ^ 2 = oo x y := rfl
    rw [hxy] at hs
    generalize R x y z = R at *
    generalize oo x y = o at *
  · simp only [al, be, hR, mR, ho, mo, h, m, al', be', al'R, al'o, be'R, be'o, k, kR, ch, chR, nn, nnR]
    field_simp
    ring
  · simp only [al, be, hR, mR, ho, mo, h, m, al', be', al'R, al'o, be'R, be'o, k, kR, ch, chR, nn, nnR]
    field_simp
    ring
  · linear_combination (norm := skip) (kR G κ R / R) * hxy + (G ^ 2 * κ * ch G R) * hs
    simp only [al, be, hR, mR, ho, mo, h, m, al', be', al'R, al'o, be'R, be'o, k, kR, ch, chR, nn, nnR]
    field_simp
    ring

end Verif.Lemmas.Full
