import Verif.Lemmas.Moves
import Mathlib.MeasureTheory.Integral.IntervalIntegral.Periodic

/-! Helper lemmas: rotation about the vertical axis. -/

namespace Verif.Lemmas
open Verif.Spec Verif.Kernel Verif.Transform Verif.Utils Complex

/-- Rotation by `α` about the z-axis; indices 1, 2, 3. -/
noncomputable def rot (α : ℝ) (i j : ℕ) : ℂ :=
  if i = 1 ∧ j = 1 then Real.cos α
  else if i = 1 ∧ j = 2 then -Real.sin α
  else if i = 2 ∧ j = 1 then Real.sin α
  else if i = 2 ∧ j = 2 then Real.cos α
  else if i = 3 ∧ j = 3 then 1
  else 0

section
variable {M : Medium} {lam : ℝ} {s r : ℤ} {zs zr : ℝ} {xd : Bool} {F Fh : ℕ → ℝ → PlaneField}
  (hM : M.OK) (hlam : lam ≠ 0) (hs : M.InClosed s zs) (hr : M.InClosed r zr)
  (hF : ∀ b φ, IsPlaneField M (lam * Real.cos φ) (lam * Real.sin φ) zs s (unitDipole b) (F b φ))
  (hH : ∀ b φ, IsPlaneField (M.homog s) (lam * Real.cos φ) (lam * Real.sin φ) zs 0
    (unitDipole b) (Fh b φ))
include hM hlam hs hr hF hH

theorem xcomp_rot (α φ : ℝ) {ta tb : ℕ} (hta : ta = 0 ∨ ta = 3) (htb : tb = 0 ∨ tb = 3) {a b : ℕ}
    (ha : 1 ≤ a ∧ a ≤ 3) (hb : 1 ≤ b ∧ b ≤ 3) :
    xcomp xd s r (F (tb + b) (φ + α)) (Fh (tb + b) (φ + α)) (ta + a) zr =
      ∑ i ∈ Finset.Icc 1 3, ∑ j ∈ Finset.Icc 1 3, rot α a i * rot α b j *
        xcomp xd s r (F (tb + j) φ) (Fh (tb + j) φ) (ta + i) zr := by
  obtain ⟨Ao, Bo, Ae, Be, R1⟩ := resp_exists (OK.tm_ord hM lam) (OK.tm_pas hM lam) hs zr r xd
  obtain ⟨Ao', Bo', Ae', Be', R2⟩ := resp_exists (OK.te_ord hM lam) (OK.te_pas hM lam) hs zr r xd
  have P := fun b φ => plane_polar hM hlam hs hr φ (hF b φ) (hH b φ) R1 R2
  have p1 := fun b φ => (P b φ).1
  have p2 := fun b φ => (P b φ).2.1
  have p3 := fun b φ => (P b φ).2.2.1
  have p4 := fun b φ => (P b φ).2.2.2.1
  have p5 := fun b φ => (P b φ).2.2.2.2.1
  have p6 := fun b φ => (P b φ).2.2.2.2.2
  have e3 : Finset.Icc 1 3 = ({1, 2, 3} : Finset ℕ) := by decide
  simp only [e3]
  simp only [Finset.sum_insert (show (1 : ℕ) ∉ ({2, 3} : Finset ℕ) by decide),
    Finset.sum_insert (show (2 : ℕ) ∉ ({3} : Finset ℕ) by decide), Finset.sum_singleton]
  obtain ⟨a1, a2⟩ := ha
  obtain ⟨b1, b2⟩ := hb
  rcases hta with rfl | rfl <;> rcases htb with rfl | rfl <;>
    interval_cases a <;> interval_cases b <;>
    simp only [p1, p2, p3, p4, p5, p6, unitDipole, rot, if_true, if_false, zero_add,
      Nat.reduceEqDiff, OfNat.ofNat_ne_one, OfNat.one_ne_ofNat, Nat.reduceAdd, and_self, and_false,
      false_and, and_true, true_and, Real.cos_add, Real.sin_add] <;> push_cast <;> ring

theorem xcomp_cont {a b : ℕ} (ha : 1 ≤ a ∧ a ≤ 6) :
    Continuous fun φ => xcomp xd s r (F b φ) (Fh b φ) a zr := by
  obtain ⟨Ao, Bo, Ae, Be, R1⟩ := resp_exists (OK.tm_ord hM lam) (OK.tm_pas hM lam) hs zr r xd
  obtain ⟨Ao', Bo', Ae', Be', R2⟩ := resp_exists (OK.te_ord hM lam) (OK.te_pas hM lam) hs zr r xd
  have P := fun φ => plane_polar hM hlam hs hr φ (hF b φ) (hH b φ) R1 R2
  have p1 := fun φ => (P φ).1
  have p2 := fun φ => (P φ).2.1
  have p3 := fun φ => (P φ).2.2.1
  have p4 := fun φ => (P φ).2.2.2.1
  have p5 := fun φ => (P φ).2.2.2.2.1
  have p6 := fun φ => (P φ).2.2.2.2.2
  obtain ⟨a1, a2⟩ := ha
  interval_cases a <;> simp only [p1, p2, p3, p4, p5, p6] <;> fun_prop

theorem xcomp_periodic {a b : ℕ} (φ : ℝ) :
    xcomp xd s r (F b (φ + 2 * Real.pi)) (Fh b (φ + 2 * Real.pi)) a zr =
      xcomp xd s r (F b φ) (Fh b φ) a zr := by
  have hl : ∀ φ : ℝ, (lam * Real.cos φ) ^ 2 + (lam * Real.sin φ) ^ 2 = lam ^ 2 := by
    intro φ; linear_combination lam ^ 2 * Real.sin_sq_add_cos_sq φ
  have e : ∀ (k : ℤ) (z : ℝ), (M.homog k).InClosed 0 z := fun k z =>
    ⟨le_refl _, by simp [Medium.homog], by simp, by simp [Medium.homog]⟩
  have g1 := hF b (φ + 2 * Real.pi)
  have g2 := hH b (φ + 2 * Real.pi)
  rw [Real.cos_add_two_pi, Real.sin_add_two_pi] at g1 g2
  obtain ⟨u1, u2, u3, u4, u5⟩ := plane_unique hM hlam (hl φ) g1 (hF b φ)
  obtain ⟨w1, w2, w3, w4, w5⟩ := plane_unique (OK.homog hM hs.1 hs.2.1) hlam (hl φ) g2 (hH b φ)
  obtain ⟨u6, u7⟩ := u5 r zr hr
  obtain ⟨w6, w7⟩ := w5 0 zr (e s zr)
  simp only [xcomp, PlaneField.comp, u1, u2, u3, u4, u6, u7, w1, w2, w3, w4, w6, w7]

theorem ring_rot (rho θ α : ℝ) {ta tb : ℕ} (hta : ta = 0 ∨ ta = 3) (htb : tb = 0 ∨ tb = 3)
    {a b : ℕ} (ha : 1 ≤ a ∧ a ≤ 3) (hb : 1 ≤ b ∧ b ≤ 3) :
    ringIntegral (fun φ => xcomp xd s r (F (tb + b) φ) (Fh (tb + b) φ) (ta + a) zr) lam rho
        (θ + α) =
      ∑ i ∈ Finset.Icc 1 3, ∑ j ∈ Finset.Icc 1 3, rot α a i * rot α b j *
        ringIntegral (fun φ => xcomp xd s r (F (tb + j) φ) (Fh (tb + j) φ) (ta + i) zr) lam rho
          θ := by
  have per : Function.Periodic (fun φ => xcomp xd s r (F (tb + b) φ) (Fh (tb + b) φ) (ta + a) zr *
      Complex.exp (-I * lam * rho * Real.cos (φ - (θ + α)))) (2 * Real.pi) := by
    intro φ
    have e1 : φ + 2 * Real.pi - (θ + α) = φ - (θ + α) + 2 * Real.pi := by ring
    simp only [xcomp_periodic hM hlam hs hr hF hH φ, e1, Real.cos_add_two_pi]
  unfold ringIntegral
  have i1 := per.intervalIntegral_add_eq 0 α
  rw [zero_add] at i1
  rw [i1]
  have i2 := intervalIntegral.integral_comp_add_right (a := 0) (b := 2 * Real.pi)
    (fun φ => xcomp xd s r (F (tb + b) φ) (Fh (tb + b) φ) (ta + a) zr *
      Complex.exp (-I * lam * rho * Real.cos (φ - (θ + α)))) α
  rw [zero_add, add_comm (2 * Real.pi) α] at i2
  rw [← i2]
  have hint : ∀ i j : ℕ, i ∈ Finset.Icc 1 3 → Continuous (fun φ => rot α a i * rot α b j *
      (xcomp xd s r (F (tb + j) φ) (Fh (tb + j) φ) (ta + i) zr *
        Complex.exp (-I * lam * rho * Real.cos (φ - θ)))) := by
    intro i j hi
    have hc := xcomp_cont (xd := xd) hM hlam hs hr hF hH (a := ta + i) (b := tb + j)
      (by rw [Finset.mem_Icc] at hi; rcases hta with rfl | rfl <;> omega)
    fun_prop
  have key : (fun φ => xcomp xd s r (F (tb + b) (φ + α)) (Fh (tb + b) (φ + α)) (ta + a) zr *
      Complex.exp (-I * lam * rho * Real.cos (φ + α - (θ + α)))) = fun φ =>
      ∑ i ∈ Finset.Icc 1 3, ∑ j ∈ Finset.Icc 1 3, rot α a i * rot α b j *
        (xcomp xd s r (F (tb + j) φ) (Fh (tb + j) φ) (ta + i) zr *
          Complex.exp (-I * lam * rho * Real.cos (φ - θ))) := by
    funext φ
    have e1 : φ + α - (θ + α) = φ - θ := by ring
    rw [xcomp_rot hM hlam hs hr hF hH α φ hta htb ha hb, e1, Finset.sum_mul]
    refine Finset.sum_congr rfl fun i _ => ?_
    rw [Finset.sum_mul]
    exact Finset.sum_congr rfl fun j _ => by ring
  rw [key, intervalIntegral.integral_finsetSum, Finset.mul_sum]
  · refine Finset.sum_congr rfl fun i hi => ?_
    rw [intervalIntegral.integral_finsetSum, Finset.mul_sum]
    · refine Finset.sum_congr rfl fun j _ => ?_
      rw [intervalIntegral.integral_const_mul]; ring
    · intro j _; exact (hint i j hi).intervalIntegrable _ _
  · intro i hi
    exact (continuous_finsetSum _ fun j _ => hint i j hi).intervalIntegrable _ _

end

end Verif.Lemmas
