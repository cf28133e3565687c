import Verif.Lemmas.Rotation
import Verif.Props.C01_Maxwell

/-!
# C08 — rotation covariance

Rotating the receiver position (azimuth), the receiver direction and the source direction by the
same angle about the vertical axis through the source leaves the response unchanged.
-/

namespace Verif.Props
open Verif.Spec Verif.Kernel Verif.Transform Verif.Utils Verif.Lemmas Complex

/-- What the code integrates over the wavenumber for receiver component `a` and source component
`b` (1–3 electric, 4–6 magnetic): decode, kernel, Hankel integrand.  `exactFactor` is
`angle_factor` without its snapping to zero of values below 1e-9. -/
noncomputable def hankelValue (o : Ops) (M : Medium) (zs zr : ℝ) (s r : ℤ) (lam rho : ℝ)
    (xdirect : Bool) (a b : ℕ) (θ : ℝ) : ℂ :=
  match checkAb (.int (10 * a + b)) with
  | .ok (c, ms, mr) =>
    hankelIntegrand (wavenumber o (earthOf M) zs zr s r lam c xdirect ms mr) c rho
      (exactFactor θ c ms mr) (besselJ0 (lam * rho)) (besselJ1 (lam * rho))
  | .error _ => 0

/-- The direction `u` (components 1, 2, 3) turned by `α` about the vertical axis. -/
noncomputable def turn (α : ℝ) (u : ℕ → ℂ) (a : ℕ) : ℂ :=
  if a = 1 then Real.cos α * u 1 - Real.sin α * u 2
  else if a = 2 then Real.sin α * u 1 + Real.cos α * u 2
  else u a

/-- **C08.**  For all source directions `v`, receiver directions `u` (each electric,
`t = 0`, or magnetic, `t = 3`), all azimuths and all rotation angles. -/
theorem C08_rotation {M : Medium} (hM : M.OK) {o : Ops} (ho : Safe o)
    {lam rho : ℝ} (hlam : 0 < lam) (hrho : 0 < rho) (θ α : ℝ)
    {s r : ℤ} {zs zr : ℝ} (hs : M.InClosed s zs) (hr : M.InClosed r zr) (hsr : zr = zs → r = s)
    (xdirect : Bool) (u v : ℕ → ℂ) {ta tb : ℕ} (hta : ta = 0 ∨ ta = 3) (htb : tb = 0 ∨ tb = 3) :
    ∑ a ∈ Finset.Icc 1 3, ∑ b ∈ Finset.Icc 1 3, turn α u a * turn α v b *
        hankelValue o M zs zr s r lam rho xdirect (ta + a) (tb + b) (θ + α) =
      ∑ a ∈ Finset.Icc 1 3, ∑ b ∈ Finset.Icc 1 3, u a * v b *
        hankelValue o M zs zr s r lam rho xdirect (ta + a) (tb + b) θ := by
  have hl : ∀ φ : ℝ, (lam * Real.cos φ) ^ 2 + (lam * Real.sin φ) ^ 2 = lam ^ 2 := by
    intro φ; linear_combination lam ^ 2 * Real.sin_sq_add_cos_sq φ
  have e : ∀ (k : ℤ) (z : ℝ), (M.homog k).InClosed 0 z := fun k z =>
    ⟨le_refl _, by simp [Medium.homog], by simp, by simp [Medium.homog]⟩
  choose F hF using fun b φ => plane_exists hM hlam.ne' (hl φ) hs (unitDipole b)
  choose Fh hH using fun b φ => plane_exists (OK.homog hM hs.1 hs.2.1) hlam.ne' (hl φ) (e s zs)
    (unitDipole b)
  have val : ∀ (θ : ℝ) {a b : ℕ}, (1 ≤ a ∧ a ≤ 6) → (1 ≤ b ∧ b ≤ 6) →
      hankelValue o M zs zr s r lam rho xdirect a b θ =
        ringIntegral (fun φ => xcomp xdirect s r (F b φ) (Fh b φ) a zr) lam rho θ := by
    intro θ a b ha hb
    obtain ⟨c, ms, mr, k1, k2⟩ := ring_all (xd := xdirect) (θ := θ) hM ho hlam hrho hs hr hsr ha hb
      (hF b) (hH b)
    unfold hankelValue
    rw [k1]
    exact k2
  have back : ∀ {a b : ℕ}, (1 ≤ a ∧ a ≤ 3) → (1 ≤ b ∧ b ≤ 3) →
      hankelValue o M zs zr s r lam rho xdirect (ta + a) (tb + b) θ =
        ∑ i ∈ Finset.Icc 1 3, ∑ j ∈ Finset.Icc 1 3, rot (-α) a i * rot (-α) b j *
          hankelValue o M zs zr s r lam rho xdirect (ta + i) (tb + j) (θ + α) := by
    intro a b ha hb
    have h := ring_rot (xd := xdirect) hM hlam.ne' hs hr hF hH rho (θ + α) (-α) hta htb ha hb
    have e1 : θ + α + -α = θ := by ring
    rw [e1] at h
    rw [val θ (by rcases hta with rfl | rfl <;> omega) (by rcases htb with rfl | rfl <;> omega), h]
    refine Finset.sum_congr rfl fun i hi => Finset.sum_congr rfl fun j hj => ?_
    rw [Finset.mem_Icc] at hi hj
    rw [val (θ + α) (by rcases hta with rfl | rfl <;> omega)
      (by rcases htb with rfl | rfl <;> omega)]
  have e3 : Finset.Icc 1 3 = ({1, 2, 3} : Finset ℕ) := by decide
  have b11 := back (a := 1) (b := 1) (by norm_num) (by norm_num)
  have b12 := back (a := 1) (b := 2) (by norm_num) (by norm_num)
  have b13 := back (a := 1) (b := 3) (by norm_num) (by norm_num)
  have b21 := back (a := 2) (b := 1) (by norm_num) (by norm_num)
  have b22 := back (a := 2) (b := 2) (by norm_num) (by norm_num)
  have b23 := back (a := 2) (b := 3) (by norm_num) (by norm_num)
  have b31 := back (a := 3) (b := 1) (by norm_num) (by norm_num)
  have b32 := back (a := 3) (b := 2) (by norm_num) (by norm_num)
  have b33 := back (a := 3) (b := 3) (by norm_num) (by norm_num)
  simp only [e3, Finset.sum_insert (show (1 : ℕ) ∉ ({2, 3} : Finset ℕ) by decide),
    Finset.sum_insert (show (2 : ℕ) ∉ ({3} : Finset ℕ) by decide), Finset.sum_singleton]
    at b11 b12 b13 b21 b22 b23 b31 b32 b33 ⊢
  rw [b11, b12, b13, b21, b22, b23, b31, b32, b33]
  simp only [rot, turn, if_true, if_false, Nat.reduceEqDiff, OfNat.ofNat_ne_one,
    OfNat.one_ne_ofNat, and_self, and_false, false_and, and_true, Real.cos_neg, Real.sin_neg]
  push_cast
  ring

/-- Magnetic receiver, electric source, a quarter turn plus a bit. -/
example (u v : ℕ → ℂ) :
    ∑ a ∈ Finset.Icc 1 3, ∑ b ∈ Finset.Icc 1 3, turn 2 u a * turn 2 v b *
        hankelValue Ops.exact exMedium 990 1000 1 1 (1 / 100) 500 false (3 + a) (0 + b) (1 + 2) =
      ∑ a ∈ Finset.Icc 1 3, ∑ b ∈ Finset.Icc 1 3, u a * v b *
        hankelValue Ops.exact exMedium 990 1000 1 1 (1 / 100) 500 false (3 + a) (0 + b) 1 :=
  C08_rotation exMedium_ok safe_exact (by norm_num) (by norm_num) 1 2 exMedium_src exMedium_rec
    (by norm_num) false u v (Or.inr rfl) (Or.inl rfl)

end Verif.Props
