import Verif.Lemmas.Plane
import Verif.Lemmas.Bessel
import Verif.Model.Hankel
import Verif.Model.CheckAb

/-! Helper lemmas: the Hankel integrand of each of the 36 codes is the ring integral. -/

namespace Verif.Lemmas
open Verif.Spec Verif.Spec.Stack Verif.Kernel Verif.Transform Verif.Utils Complex

set_option linter.unusedSectionVars false
set_option linter.unusedSimpArgs false
set_option linter.unusedTactic false
set_option linter.unreachableTactic false

/-- The earth model as the kernel sees it. -/
noncomputable def earthOf (M : Medium) : Earth :=
  ⟨M.n, depthOf M.D, M.etaH, M.etaV, M.zetaH, M.zetaV⟩

/-- `angle_factor` without snapping to zero. -/
noncomputable def exactFactor (angle : ℝ) (ab : ℕ) (msrc mrec : Bool) : ℝ :=
  if ab ∈ [33] then 1
  else
    let a0 := if mrec = true ∧ msrc = false then angle + Real.pi else angle
    let a1 := if ab ∈ [11, 22, 15, 24, 12, 21, 14, 25] then a0 * 2 else a0
    if ab ∈ [11, 22, 15, 24, 13, 31, 26, 35] then Real.cos a1 else Real.sin a1

variable {M : Medium} {lam : ℝ} {o : Ops} {s r : ℤ} {zs zr : ℝ} {xd : Bool}
  {Ao Bo Ae Be Ao' Bo' Ae' Be' : ℂ}

theorem mulD (z : ℂ) : (-1 : ℂ) * z = -z := neg_one_mul z

section
variable (hM : M.OK) (ho : Safe o) (hs : M.InClosed s zs) (hr : M.InClosed r zr)
  (hsr : zr = zs → r = s)
  (R1 : Resp (M.tm lam) zs zr s r xd Ao Bo Ae Be)
  (R2 : Resp (M.te lam) zs zr s r xd Ao' Bo' Ae' Be')
include hM ho hs hr hsr R1 R2

theorem gf_ee {ab : ℕ} {msrc : Bool} :
    let P := greenfct o (earthOf M) zs zr s r lam ab xd msrc false
    (ab ∈ [11, 12, 21, 22] → P = (Bo, Ae')) ∧
    (ab ∈ [14, 15, 24, 25] → P = (Be, Ao')) ∧
    (ab ∈ [13, 23] → P = (-(Be / M.etaV s), 0)) ∧
    (ab ∈ [31, 32] → P = (Ao / M.etaV r, 0)) ∧
    (ab ∈ [34, 35] → P = (Ae / M.etaV r, 0)) ∧
    (ab ∈ [16, 26] → P = (0, Ae' / M.zetaV s)) ∧
    (ab = 33 → P = (Ae / (M.etaV s * M.etaV r), 0)) := by
  have h := core_eq (ab := ab) (OK.dualEE hM lam) ho hs hr hsr R1 R2
  simp only [one_mul] at h
  have e : greenfct o (earthOf M) zs zr s r lam ab xd msrc false =
      core o (M.tm lam).n (depthOf (M.tm lam).D) (M.tm lam).e M.etaV (M.te lam).e M.zetaV
        zs zr s r lam ab xd := by
    rw [greenfct_ee]; rfl
  intro P
  rw [show P = _ from e]
  exact h

theorem gf_mm {ab : ℕ} :
    let P := greenfct o (earthOf M) zs zr s r lam ab xd true true
    (ab ∈ [11, 12, 21, 22] → P = (-Bo', -Ae)) ∧
    (ab ∈ [13, 23] → P = (Be' / M.zetaV s, 0)) ∧
    (ab ∈ [31, 32] → P = (-(Ao' / M.zetaV r), 0)) ∧
    (ab = 33 → P = (-(Ae' / (M.zetaV s * M.zetaV r)), 0)) := by
  have h := core_eq (ab := ab) (OK.dualMM hM lam) ho hs hr hsr R2 R1
  simp only [mulD, neg_div, neg_neg] at h
  intro P
  rw [show P = _ from greenfct_mm o (earthOf M) zs zr s r lam ab xd]
  exact ⟨h.1, h.2.2.1, h.2.2.2.1, h.2.2.2.2.2.2⟩

theorem gf_me {ab : ℕ} :
    let P := greenfct o (earthOf M) zs zr s r lam ab xd false true
    (ab ∈ [14, 15, 24, 25] → P = (Ao, Be')) ∧
    (ab ∈ [34, 35] → P = (Ae / M.etaV s, 0)) ∧
    (ab ∈ [16, 26] → P = (0, Ae' / M.zetaV r)) := by
  have q1 := resp_recip (OK.tm_ord hM lam) (OK.tm_pas hM lam) hs hr R1
  have q2 := resp_recip (OK.te_ord hM lam) (OK.te_pas hM lam) hs hr R2
  have h := core_eq (ab := ab) (OK.dualEE hM lam) ho hr hs (fun e => (hsr e.symm).symm) q1 q2
  simp only [one_mul] at h
  intro P
  rw [show P = _ from greenfct_me o (earthOf M) zs zr s r lam ab xd]
  exact ⟨h.2.1, h.2.2.2.2.1, h.2.2.2.2.2.1⟩

end

/-- Components of a plane field in polar wavenumber coordinates. -/
theorem plane_polar (hM : M.OK) (hlam : lam ≠ 0) (hs : M.InClosed s zs) (hr : M.InClosed r zr)
    {d : Dipole} {F Fh : PlaneField} (φ : ℝ)
    (hF : IsPlaneField M (lam * Real.cos φ) (lam * Real.sin φ) zs s d F)
    (hH : IsPlaneField (M.homog s) (lam * Real.cos φ) (lam * Real.sin φ) zs 0 d Fh)
    (R1 : Resp (M.tm lam) zs zr s r xd Ao Bo Ae Be)
    (R2 : Resp (M.te lam) zs zr s r xd Ao' Bo' Ae' Be') :
    let c : ℂ := Real.cos φ
    let t : ℂ := Real.sin φ
    let j1 : ℂ := -(c * d.Jx) - t * d.Jy
    let j2 : ℂ := c * d.Ky - t * d.Kx - I * lam * d.Jz / M.etaV s
    let j3 : ℂ := c * d.Kx + t * d.Ky
    let j4 : ℂ := c * d.Jy - t * d.Jx + I * lam * d.Kz / M.zetaV s
    let AT := j1 / 2 * Ao - j2 / 2 * Ae
    let BT := j1 / 2 * Bo - j2 / 2 * Be
    let AE := j3 / 2 * Ao' - j4 / 2 * Ae'
    let BE := j3 / 2 * Bo' - j4 / 2 * Be'
    let X := fun a => xcomp xd s r F Fh a zr
    X 1 = -(c * BT) - t * AE ∧
    X 2 = -(t * BT) + c * AE ∧
    X 3 = -I * (lam * AT) / M.etaV r ∧
    X 4 = c * BE - t * AT ∧
    X 5 = t * BE + c * AT ∧
    X 6 = I * (lam * AE) / M.zetaV r := by
  have hlam' : (lam : ℂ) ≠ 0 := by exact_mod_cast hlam
  have hl : (lam * Real.cos φ) ^ 2 + (lam * Real.sin φ) ^ 2 = lam ^ 2 := by
    have := Real.sin_sq_add_cos_sq φ
    linear_combination lam ^ 2 * this
  obtain ⟨h1, h2, h3, h4, h5, h6⟩ := plane_comp hM hlam hl hs hr hF hH R1 R2
  intro c t j1 j2 j3 j4 AT BT AE BE X
  refine ⟨h1.trans ?_, h2.trans ?_, h3.trans ?_, h4.trans ?_, h5.trans ?_, h6.trans ?_⟩
  · rw [div_eq_iff (pow_ne_zero 2 hlam')]
    simp only [c, t, j1, j2, j3, j4, BT, AE]; push_cast; ring
  · rw [div_eq_iff (pow_ne_zero 2 hlam')]
    simp only [c, t, j1, j2, j3, j4, BT, AE]; push_cast; ring
  · simp only [c, t, j1, j2, AT]; push_cast; ring
  · rw [div_eq_iff (pow_ne_zero 2 hlam')]
    simp only [c, t, j1, j2, j3, j4, AT, BE]; push_cast; ring
  · rw [div_eq_iff (pow_ne_zero 2 hlam')]
    simp only [c, t, j1, j2, j3, j4, AT, BE]; push_cast; ring
  · simp only [c, t, j3, j4, AE]; push_cast; ring

theorem div4 (ho : Safe o) (x : ℂ) : o.div x (4 * (Real.pi : ℂ)) = x / (4 * Real.pi) :=
  ho.div _ _ (by simp [Real.pi_ne_zero])
theorem div8 (ho : Safe o) (x : ℂ) : o.div x (8 * (Real.pi : ℂ)) = x / (8 * Real.pi) := by
  rw [ho.div _ _ (by simp [Real.pi_ne_zero])]
theorem div8n (ho : Safe o) (x : ℂ) : o.div x (-(8 * (Real.pi : ℂ))) = -(x / (8 * Real.pi)) := by
  rw [ho.div _ _ (by simp [Real.pi_ne_zero])]; ring

/-- The claim for one code. -/
def RingClaim (o : Ops) (M : Medium) (zs zr : ℝ) (s r : ℤ) (lam rho θ : ℝ) (xd : Bool)
    (F Fh : ℝ → PlaneField) (a b abc : ℕ) (msrc mrec : Bool) : Prop :=
  hankelIntegrand (wavenumber o (earthOf M) zs zr s r lam abc xd msrc mrec) abc rho
      (exactFactor θ abc msrc mrec) (besselJ0 (lam * rho)) (besselJ1 (lam * rho)) =
    ringIntegral (fun φ => xcomp xd s r (F φ) (Fh φ) a zr) lam rho θ

section
variable {rho θ : ℝ} {F Fh : ℝ → PlaneField}
variable (hM : M.OK) (ho : Safe o) (hlam : 0 < lam) (hrho : 0 < rho)
  (hs : M.InClosed s zs) (hr : M.InClosed r zr)
  (hsr : zr = zs → r = s)
  (R1 : Resp (M.tm lam) zs zr s r xd Ao Bo Ae Be)
  (R2 : Resp (M.te lam) zs zr s r xd Ao' Bo' Ae' Be')
include hM ho hlam hrho hs hr hsr R1 R2

theorem ring11 (hF : ∀ φ, IsPlaneField M (lam * Real.cos φ) (lam * Real.sin φ) zs s
      (unitDipole 1) (F φ))
    (hH : ∀ φ, IsPlaneField (M.homog s) (lam * Real.cos φ) (lam * Real.sin φ) zs 0
      (unitDipole 1) (Fh φ)) :
    RingClaim o M zs zr s r lam rho θ xd F Fh 1 1 11 false false := by
  have hX : (fun φ => xcomp xd s r (F φ) (Fh φ) 1 zr) = trig ((Bo - Ae') / 4) (0) (0) ((Bo + Ae') / 4) (0) := by
    funext φ
    have hsc : (Real.sin φ : ℂ) ^ 2 + (Real.cos φ : ℂ) ^ 2 - 1 = 0 := by
      have := Real.sin_sq_add_cos_sq φ
      exact_mod_cast sub_eq_zero.2 this
    refine ((plane_polar hM hlam.ne' hs hr φ (hF φ) (hH φ) R1 R2).1).trans ?_
    simp only [unitDipole, trig, if_true, Nat.reduceEqDiff, OfNat.ofNat_ne_one, OfNat.one_ne_ofNat,
      if_false, Real.cos_two_mul, Real.sin_two_mul]
    push_cast at hsc ⊢
    linear_combination (-Ae' / 2) * hsc
  have hP := (gf_ee (ab := 11) (msrc := false) hM ho hs hr hsr R1 R2).1 (by simp)
  unfold RingClaim
  rw [hX, ring_trig (mul_pos hlam hrho).ne']
  have hpi : (Real.pi : ℂ) ≠ 0 := by exact_mod_cast Real.pi_ne_zero
  have hrho' : (rho : ℂ) ≠ 0 := by exact_mod_cast hrho.ne'
  have hlam' : (lam : ℂ) ≠ 0 := by exact_mod_cast hlam.ne'
  have v1 := ne_of_re_pos (hM.pas s hs.1 hs.2.1).etaV_re
  have v2 := ne_of_re_pos (hM.pas r hr.1 hr.2.1).etaV_re
  have v3 := (hM.pas s hs.1 hs.2.1).zetaV_ne
  have v4 := (hM.pas r hr.1 hr.2.1).zetaV_ne
  have h2 : ∀ x : ℝ, (x + Real.pi) * 2 = 2 * x + 2 * Real.pi := fun x => by ring
  simp only [hankelIntegrand, wavenumber, hP, j2codes, exactFactor, List.mem_cons, div4 ho, div8 ho, div8n ho,
    mul_comm θ 2, zero_mul, mul_zero, zero_add, add_zero, sub_zero, zero_sub,
    List.not_mem_nil, or_false, Nat.reduceEqDiff, OfNat.ofNat_ne_one, if_true, if_false, or_true,
    true_or, false_or, mul_one, one_mul, mul_neg, neg_neg, neg_mul, Bool.false_eq_true, and_self,
    and_false, false_and, h2, Real.cos_add_two_pi, Real.sin_add_two_pi, Real.cos_add_pi,
    Real.sin_add_pi, not_true_eq_false, not_false_eq_true,
    Bool.true_eq_false, true_and]
  push_cast
  field_simp
  try ring_nf
  try (simp only [I_sq]; ring)

theorem ring12 (hF : ∀ φ, IsPlaneField M (lam * Real.cos φ) (lam * Real.sin φ) zs s
      (unitDipole 2) (F φ))
    (hH : ∀ φ, IsPlaneField (M.homog s) (lam * Real.cos φ) (lam * Real.sin φ) zs 0
      (unitDipole 2) (Fh φ)) :
    RingClaim o M zs zr s r lam rho θ xd F Fh 1 2 12 false false := by
  have hX : (fun φ => xcomp xd s r (F φ) (Fh φ) 1 zr) = trig (0) (0) (0) (0) ((Bo + Ae') / 4) := by
    funext φ
    have hsc : (Real.sin φ : ℂ) ^ 2 + (Real.cos φ : ℂ) ^ 2 - 1 = 0 := by
      have := Real.sin_sq_add_cos_sq φ
      exact_mod_cast sub_eq_zero.2 this
    refine ((plane_polar hM hlam.ne' hs hr φ (hF φ) (hH φ) R1 R2).1).trans ?_
    simp only [unitDipole, trig, if_true, Nat.reduceEqDiff, OfNat.ofNat_ne_one, OfNat.one_ne_ofNat,
      if_false, Real.cos_two_mul, Real.sin_two_mul]
    push_cast at hsc ⊢
    linear_combination (0) * hsc
  have hP := (gf_ee (ab := 12) (msrc := false) hM ho hs hr hsr R1 R2).1 (by simp)
  unfold RingClaim
  rw [hX, ring_trig (mul_pos hlam hrho).ne']
  have hpi : (Real.pi : ℂ) ≠ 0 := by exact_mod_cast Real.pi_ne_zero
  have hrho' : (rho : ℂ) ≠ 0 := by exact_mod_cast hrho.ne'
  have hlam' : (lam : ℂ) ≠ 0 := by exact_mod_cast hlam.ne'
  have v1 := ne_of_re_pos (hM.pas s hs.1 hs.2.1).etaV_re
  have v2 := ne_of_re_pos (hM.pas r hr.1 hr.2.1).etaV_re
  have v3 := (hM.pas s hs.1 hs.2.1).zetaV_ne
  have v4 := (hM.pas r hr.1 hr.2.1).zetaV_ne
  have h2 : ∀ x : ℝ, (x + Real.pi) * 2 = 2 * x + 2 * Real.pi := fun x => by ring
  simp only [hankelIntegrand, wavenumber, hP, j2codes, exactFactor, List.mem_cons, div4 ho, div8 ho, div8n ho,
    mul_comm θ 2, zero_mul, mul_zero, zero_add, add_zero, sub_zero, zero_sub,
    List.not_mem_nil, or_false, Nat.reduceEqDiff, OfNat.ofNat_ne_one, if_true, if_false, or_true,
    true_or, false_or, mul_one, one_mul, mul_neg, neg_neg, neg_mul, Bool.false_eq_true, and_self,
    and_false, false_and, h2, Real.cos_add_two_pi, Real.sin_add_two_pi, Real.cos_add_pi,
    Real.sin_add_pi, not_true_eq_false, not_false_eq_true,
    Bool.true_eq_false, true_and]
  push_cast
  field_simp
  try ring_nf
  try (simp only [I_sq]; ring)

theorem ring13 (hF : ∀ φ, IsPlaneField M (lam * Real.cos φ) (lam * Real.sin φ) zs s
      (unitDipole 3) (F φ))
    (hH : ∀ φ, IsPlaneField (M.homog s) (lam * Real.cos φ) (lam * Real.sin φ) zs 0
      (unitDipole 3) (Fh φ)) :
    RingClaim o M zs zr s r lam rho θ xd F Fh 1 3 13 false false := by
  have hX : (fun φ => xcomp xd s r (F φ) (Fh φ) 1 zr) = trig (0) (-(I * (lam : ℂ) * Be / (2 * M.etaV s))) (0) (0) (0) := by
    funext φ
    have hsc : (Real.sin φ : ℂ) ^ 2 + (Real.cos φ : ℂ) ^ 2 - 1 = 0 := by
      have := Real.sin_sq_add_cos_sq φ
      exact_mod_cast sub_eq_zero.2 this
    refine ((plane_polar hM hlam.ne' hs hr φ (hF φ) (hH φ) R1 R2).1).trans ?_
    simp only [unitDipole, trig, if_true, Nat.reduceEqDiff, OfNat.ofNat_ne_one, OfNat.one_ne_ofNat,
      if_false, Real.cos_two_mul, Real.sin_two_mul]
    push_cast at hsc ⊢
    linear_combination (0) * hsc
  have hP := (gf_ee (ab := 13) (msrc := false) hM ho hs hr hsr R1 R2).2.2.1 (by simp)
  unfold RingClaim
  rw [hX, ring_trig (mul_pos hlam hrho).ne']
  have hpi : (Real.pi : ℂ) ≠ 0 := by exact_mod_cast Real.pi_ne_zero
  have hrho' : (rho : ℂ) ≠ 0 := by exact_mod_cast hrho.ne'
  have hlam' : (lam : ℂ) ≠ 0 := by exact_mod_cast hlam.ne'
  have v1 := ne_of_re_pos (hM.pas s hs.1 hs.2.1).etaV_re
  have v2 := ne_of_re_pos (hM.pas r hr.1 hr.2.1).etaV_re
  have v3 := (hM.pas s hs.1 hs.2.1).zetaV_ne
  have v4 := (hM.pas r hr.1 hr.2.1).zetaV_ne
  have h2 : ∀ x : ℝ, (x + Real.pi) * 2 = 2 * x + 2 * Real.pi := fun x => by ring
  simp only [hankelIntegrand, wavenumber, hP, j2codes, exactFactor, List.mem_cons, div4 ho, div8 ho, div8n ho,
    mul_comm θ 2, zero_mul, mul_zero, zero_add, add_zero, sub_zero, zero_sub,
    List.not_mem_nil, or_false, Nat.reduceEqDiff, OfNat.ofNat_ne_one, if_true, if_false, or_true,
    true_or, false_or, mul_one, one_mul, mul_neg, neg_neg, neg_mul, Bool.false_eq_true, and_self,
    and_false, false_and, h2, Real.cos_add_two_pi, Real.sin_add_two_pi, Real.cos_add_pi,
    Real.sin_add_pi, not_true_eq_false, not_false_eq_true,
    Bool.true_eq_false, true_and]
  push_cast
  field_simp
  try ring_nf
  try (simp only [I_sq]; ring)

theorem ring14 (hF : ∀ φ, IsPlaneField M (lam * Real.cos φ) (lam * Real.sin φ) zs s
      (unitDipole 4) (F φ))
    (hH : ∀ φ, IsPlaneField (M.homog s) (lam * Real.cos φ) (lam * Real.sin φ) zs 0
      (unitDipole 4) (Fh φ)) :
    RingClaim o M zs zr s r lam rho θ xd F Fh 1 4 14 true false := by
  have hX : (fun φ => xcomp xd s r (F φ) (Fh φ) 1 zr) = trig (0) (0) (0) (0) (-(Be + Ao') / 4) := by
    funext φ
    have hsc : (Real.sin φ : ℂ) ^ 2 + (Real.cos φ : ℂ) ^ 2 - 1 = 0 := by
      have := Real.sin_sq_add_cos_sq φ
      exact_mod_cast sub_eq_zero.2 this
    refine ((plane_polar hM hlam.ne' hs hr φ (hF φ) (hH φ) R1 R2).1).trans ?_
    simp only [unitDipole, trig, if_true, Nat.reduceEqDiff, OfNat.ofNat_ne_one, OfNat.one_ne_ofNat,
      if_false, Real.cos_two_mul, Real.sin_two_mul]
    push_cast at hsc ⊢
    linear_combination (0) * hsc
  have hP := (gf_ee (ab := 14) (msrc := true) hM ho hs hr hsr R1 R2).2.1 (by simp)
  unfold RingClaim
  rw [hX, ring_trig (mul_pos hlam hrho).ne']
  have hpi : (Real.pi : ℂ) ≠ 0 := by exact_mod_cast Real.pi_ne_zero
  have hrho' : (rho : ℂ) ≠ 0 := by exact_mod_cast hrho.ne'
  have hlam' : (lam : ℂ) ≠ 0 := by exact_mod_cast hlam.ne'
  have v1 := ne_of_re_pos (hM.pas s hs.1 hs.2.1).etaV_re
  have v2 := ne_of_re_pos (hM.pas r hr.1 hr.2.1).etaV_re
  have v3 := (hM.pas s hs.1 hs.2.1).zetaV_ne
  have v4 := (hM.pas r hr.1 hr.2.1).zetaV_ne
  have h2 : ∀ x : ℝ, (x + Real.pi) * 2 = 2 * x + 2 * Real.pi := fun x => by ring
  simp only [hankelIntegrand, wavenumber, hP, j2codes, exactFactor, List.mem_cons, div4 ho, div8 ho, div8n ho,
    mul_comm θ 2, zero_mul, mul_zero, zero_add, add_zero, sub_zero, zero_sub,
    List.not_mem_nil, or_false, Nat.reduceEqDiff, OfNat.ofNat_ne_one, if_true, if_false, or_true,
    true_or, false_or, mul_one, one_mul, mul_neg, neg_neg, neg_mul, Bool.false_eq_true, and_self,
    and_false, false_and, h2, Real.cos_add_two_pi, Real.sin_add_two_pi, Real.cos_add_pi,
    Real.sin_add_pi, not_true_eq_false, not_false_eq_true,
    Bool.true_eq_false, true_and]
  push_cast
  field_simp
  try ring_nf
  try (simp only [I_sq]; ring)

theorem ring15 (hF : ∀ φ, IsPlaneField M (lam * Real.cos φ) (lam * Real.sin φ) zs s
      (unitDipole 5) (F φ))
    (hH : ∀ φ, IsPlaneField (M.homog s) (lam * Real.cos φ) (lam * Real.sin φ) zs 0
      (unitDipole 5) (Fh φ)) :
    RingClaim o M zs zr s r lam rho θ xd F Fh 1 5 15 true false := by
  have hX : (fun φ => xcomp xd s r (F φ) (Fh φ) 1 zr) = trig ((Be - Ao') / 4) (0) (0) ((Be + Ao') / 4) (0) := by
    funext φ
    have hsc : (Real.sin φ : ℂ) ^ 2 + (Real.cos φ : ℂ) ^ 2 - 1 = 0 := by
      have := Real.sin_sq_add_cos_sq φ
      exact_mod_cast sub_eq_zero.2 this
    refine ((plane_polar hM hlam.ne' hs hr φ (hF φ) (hH φ) R1 R2).1).trans ?_
    simp only [unitDipole, trig, if_true, Nat.reduceEqDiff, OfNat.ofNat_ne_one, OfNat.one_ne_ofNat,
      if_false, Real.cos_two_mul, Real.sin_two_mul]
    push_cast at hsc ⊢
    linear_combination (-Ao' / 2) * hsc
  have hP := (gf_ee (ab := 15) (msrc := true) hM ho hs hr hsr R1 R2).2.1 (by simp)
  unfold RingClaim
  rw [hX, ring_trig (mul_pos hlam hrho).ne']
  have hpi : (Real.pi : ℂ) ≠ 0 := by exact_mod_cast Real.pi_ne_zero
  have hrho' : (rho : ℂ) ≠ 0 := by exact_mod_cast hrho.ne'
  have hlam' : (lam : ℂ) ≠ 0 := by exact_mod_cast hlam.ne'
  have v1 := ne_of_re_pos (hM.pas s hs.1 hs.2.1).etaV_re
  have v2 := ne_of_re_pos (hM.pas r hr.1 hr.2.1).etaV_re
  have v3 := (hM.pas s hs.1 hs.2.1).zetaV_ne
  have v4 := (hM.pas r hr.1 hr.2.1).zetaV_ne
  have h2 : ∀ x : ℝ, (x + Real.pi) * 2 = 2 * x + 2 * Real.pi := fun x => by ring
  simp only [hankelIntegrand, wavenumber, hP, j2codes, exactFactor, List.mem_cons, div4 ho, div8 ho, div8n ho,
    mul_comm θ 2, zero_mul, mul_zero, zero_add, add_zero, sub_zero, zero_sub,
    List.not_mem_nil, or_false, Nat.reduceEqDiff, OfNat.ofNat_ne_one, if_true, if_false, or_true,
    true_or, false_or, mul_one, one_mul, mul_neg, neg_neg, neg_mul, Bool.false_eq_true, and_self,
    and_false, false_and, h2, Real.cos_add_two_pi, Real.sin_add_two_pi, Real.cos_add_pi,
    Real.sin_add_pi, not_true_eq_false, not_false_eq_true,
    Bool.true_eq_false, true_and]
  push_cast
  field_simp
  try ring_nf
  try (simp only [I_sq]; ring)

theorem ring16 (hF : ∀ φ, IsPlaneField M (lam * Real.cos φ) (lam * Real.sin φ) zs s
      (unitDipole 6) (F φ))
    (hH : ∀ φ, IsPlaneField (M.homog s) (lam * Real.cos φ) (lam * Real.sin φ) zs 0
      (unitDipole 6) (Fh φ)) :
    RingClaim o M zs zr s r lam rho θ xd F Fh 1 6 16 true false := by
  have hX : (fun φ => xcomp xd s r (F φ) (Fh φ) 1 zr) = trig (0) (0) (I * (lam : ℂ) * Ae' / (2 * M.zetaV s)) (0) (0) := by
    funext φ
    have hsc : (Real.sin φ : ℂ) ^ 2 + (Real.cos φ : ℂ) ^ 2 - 1 = 0 := by
      have := Real.sin_sq_add_cos_sq φ
      exact_mod_cast sub_eq_zero.2 this
    refine ((plane_polar hM hlam.ne' hs hr φ (hF φ) (hH φ) R1 R2).1).trans ?_
    simp only [unitDipole, trig, if_true, Nat.reduceEqDiff, OfNat.ofNat_ne_one, OfNat.one_ne_ofNat,
      if_false, Real.cos_two_mul, Real.sin_two_mul]
    push_cast at hsc ⊢
    linear_combination (0) * hsc
  have hP := (gf_ee (ab := 16) (msrc := true) hM ho hs hr hsr R1 R2).2.2.2.2.2.1 (by simp)
  unfold RingClaim
  rw [hX, ring_trig (mul_pos hlam hrho).ne']
  have hpi : (Real.pi : ℂ) ≠ 0 := by exact_mod_cast Real.pi_ne_zero
  have hrho' : (rho : ℂ) ≠ 0 := by exact_mod_cast hrho.ne'
  have hlam' : (lam : ℂ) ≠ 0 := by exact_mod_cast hlam.ne'
  have v1 := ne_of_re_pos (hM.pas s hs.1 hs.2.1).etaV_re
  have v2 := ne_of_re_pos (hM.pas r hr.1 hr.2.1).etaV_re
  have v3 := (hM.pas s hs.1 hs.2.1).zetaV_ne
  have v4 := (hM.pas r hr.1 hr.2.1).zetaV_ne
  have h2 : ∀ x : ℝ, (x + Real.pi) * 2 = 2 * x + 2 * Real.pi := fun x => by ring
  simp only [hankelIntegrand, wavenumber, hP, j2codes, exactFactor, List.mem_cons, div4 ho, div8 ho, div8n ho,
    mul_comm θ 2, zero_mul, mul_zero, zero_add, add_zero, sub_zero, zero_sub,
    List.not_mem_nil, or_false, Nat.reduceEqDiff, OfNat.ofNat_ne_one, if_true, if_false, or_true,
    true_or, false_or, mul_one, one_mul, mul_neg, neg_neg, neg_mul, Bool.false_eq_true, and_self,
    and_false, false_and, h2, Real.cos_add_two_pi, Real.sin_add_two_pi, Real.cos_add_pi,
    Real.sin_add_pi, not_true_eq_false, not_false_eq_true,
    Bool.true_eq_false, true_and]
  push_cast
  field_simp
  try ring_nf
  try (simp only [I_sq]; ring)

theorem ring21 (hF : ∀ φ, IsPlaneField M (lam * Real.cos φ) (lam * Real.sin φ) zs s
      (unitDipole 1) (F φ))
    (hH : ∀ φ, IsPlaneField (M.homog s) (lam * Real.cos φ) (lam * Real.sin φ) zs 0
      (unitDipole 1) (Fh φ)) :
    RingClaim o M zs zr s r lam rho θ xd F Fh 2 1 21 false false := by
  have hX : (fun φ => xcomp xd s r (F φ) (Fh φ) 2 zr) = trig (0) (0) (0) (0) ((Bo + Ae') / 4) := by
    funext φ
    have hsc : (Real.sin φ : ℂ) ^ 2 + (Real.cos φ : ℂ) ^ 2 - 1 = 0 := by
      have := Real.sin_sq_add_cos_sq φ
      exact_mod_cast sub_eq_zero.2 this
    refine ((plane_polar hM hlam.ne' hs hr φ (hF φ) (hH φ) R1 R2).2.1).trans ?_
    simp only [unitDipole, trig, if_true, Nat.reduceEqDiff, OfNat.ofNat_ne_one, OfNat.one_ne_ofNat,
      if_false, Real.cos_two_mul, Real.sin_two_mul]
    push_cast at hsc ⊢
    linear_combination (0) * hsc
  have hP := (gf_ee (ab := 21) (msrc := false) hM ho hs hr hsr R1 R2).1 (by simp)
  unfold RingClaim
  rw [hX, ring_trig (mul_pos hlam hrho).ne']
  have hpi : (Real.pi : ℂ) ≠ 0 := by exact_mod_cast Real.pi_ne_zero
  have hrho' : (rho : ℂ) ≠ 0 := by exact_mod_cast hrho.ne'
  have hlam' : (lam : ℂ) ≠ 0 := by exact_mod_cast hlam.ne'
  have v1 := ne_of_re_pos (hM.pas s hs.1 hs.2.1).etaV_re
  have v2 := ne_of_re_pos (hM.pas r hr.1 hr.2.1).etaV_re
  have v3 := (hM.pas s hs.1 hs.2.1).zetaV_ne
  have v4 := (hM.pas r hr.1 hr.2.1).zetaV_ne
  have h2 : ∀ x : ℝ, (x + Real.pi) * 2 = 2 * x + 2 * Real.pi := fun x => by ring
  simp only [hankelIntegrand, wavenumber, hP, j2codes, exactFactor, List.mem_cons, div4 ho, div8 ho, div8n ho,
    mul_comm θ 2, zero_mul, mul_zero, zero_add, add_zero, sub_zero, zero_sub,
    List.not_mem_nil, or_false, Nat.reduceEqDiff, OfNat.ofNat_ne_one, if_true, if_false, or_true,
    true_or, false_or, mul_one, one_mul, mul_neg, neg_neg, neg_mul, Bool.false_eq_true, and_self,
    and_false, false_and, h2, Real.cos_add_two_pi, Real.sin_add_two_pi, Real.cos_add_pi,
    Real.sin_add_pi, not_true_eq_false, not_false_eq_true,
    Bool.true_eq_false, true_and]
  push_cast
  field_simp
  try ring_nf
  try (simp only [I_sq]; ring)

theorem ring22 (hF : ∀ φ, IsPlaneField M (lam * Real.cos φ) (lam * Real.sin φ) zs s
      (unitDipole 2) (F φ))
    (hH : ∀ φ, IsPlaneField (M.homog s) (lam * Real.cos φ) (lam * Real.sin φ) zs 0
      (unitDipole 2) (Fh φ)) :
    RingClaim o M zs zr s r lam rho θ xd F Fh 2 2 22 false false := by
  have hX : (fun φ => xcomp xd s r (F φ) (Fh φ) 2 zr) = trig ((Bo - Ae') / 4) (0) (0) (-(Bo + Ae') / 4) (0) := by
    funext φ
    have hsc : (Real.sin φ : ℂ) ^ 2 + (Real.cos φ : ℂ) ^ 2 - 1 = 0 := by
      have := Real.sin_sq_add_cos_sq φ
      exact_mod_cast sub_eq_zero.2 this
    refine ((plane_polar hM hlam.ne' hs hr φ (hF φ) (hH φ) R1 R2).2.1).trans ?_
    simp only [unitDipole, trig, if_true, Nat.reduceEqDiff, OfNat.ofNat_ne_one, OfNat.one_ne_ofNat,
      if_false, Real.cos_two_mul, Real.sin_two_mul]
    push_cast at hsc ⊢
    linear_combination (Bo / 2) * hsc
  have hP := (gf_ee (ab := 22) (msrc := false) hM ho hs hr hsr R1 R2).1 (by simp)
  unfold RingClaim
  rw [hX, ring_trig (mul_pos hlam hrho).ne']
  have hpi : (Real.pi : ℂ) ≠ 0 := by exact_mod_cast Real.pi_ne_zero
  have hrho' : (rho : ℂ) ≠ 0 := by exact_mod_cast hrho.ne'
  have hlam' : (lam : ℂ) ≠ 0 := by exact_mod_cast hlam.ne'
  have v1 := ne_of_re_pos (hM.pas s hs.1 hs.2.1).etaV_re
  have v2 := ne_of_re_pos (hM.pas r hr.1 hr.2.1).etaV_re
  have v3 := (hM.pas s hs.1 hs.2.1).zetaV_ne
  have v4 := (hM.pas r hr.1 hr.2.1).zetaV_ne
  have h2 : ∀ x : ℝ, (x + Real.pi) * 2 = 2 * x + 2 * Real.pi := fun x => by ring
  simp only [hankelIntegrand, wavenumber, hP, j2codes, exactFactor, List.mem_cons, div4 ho, div8 ho, div8n ho,
    mul_comm θ 2, zero_mul, mul_zero, zero_add, add_zero, sub_zero, zero_sub,
    List.not_mem_nil, or_false, Nat.reduceEqDiff, OfNat.ofNat_ne_one, if_true, if_false, or_true,
    true_or, false_or, mul_one, one_mul, mul_neg, neg_neg, neg_mul, Bool.false_eq_true, and_self,
    and_false, false_and, h2, Real.cos_add_two_pi, Real.sin_add_two_pi, Real.cos_add_pi,
    Real.sin_add_pi, not_true_eq_false, not_false_eq_true,
    Bool.true_eq_false, true_and]
  push_cast
  field_simp
  try ring_nf
  try (simp only [I_sq]; ring)

theorem ring23 (hF : ∀ φ, IsPlaneField M (lam * Real.cos φ) (lam * Real.sin φ) zs s
      (unitDipole 3) (F φ))
    (hH : ∀ φ, IsPlaneField (M.homog s) (lam * Real.cos φ) (lam * Real.sin φ) zs 0
      (unitDipole 3) (Fh φ)) :
    RingClaim o M zs zr s r lam rho θ xd F Fh 2 3 23 false false := by
  have hX : (fun φ => xcomp xd s r (F φ) (Fh φ) 2 zr) = trig (0) (0) (-(I * (lam : ℂ) * Be / (2 * M.etaV s))) (0) (0) := by
    funext φ
    have hsc : (Real.sin φ : ℂ) ^ 2 + (Real.cos φ : ℂ) ^ 2 - 1 = 0 := by
      have := Real.sin_sq_add_cos_sq φ
      exact_mod_cast sub_eq_zero.2 this
    refine ((plane_polar hM hlam.ne' hs hr φ (hF φ) (hH φ) R1 R2).2.1).trans ?_
    simp only [unitDipole, trig, if_true, Nat.reduceEqDiff, OfNat.ofNat_ne_one, OfNat.one_ne_ofNat,
      if_false, Real.cos_two_mul, Real.sin_two_mul]
    push_cast at hsc ⊢
    linear_combination (0) * hsc
  have hP := (gf_ee (ab := 23) (msrc := false) hM ho hs hr hsr R1 R2).2.2.1 (by simp)
  unfold RingClaim
  rw [hX, ring_trig (mul_pos hlam hrho).ne']
  have hpi : (Real.pi : ℂ) ≠ 0 := by exact_mod_cast Real.pi_ne_zero
  have hrho' : (rho : ℂ) ≠ 0 := by exact_mod_cast hrho.ne'
  have hlam' : (lam : ℂ) ≠ 0 := by exact_mod_cast hlam.ne'
  have v1 := ne_of_re_pos (hM.pas s hs.1 hs.2.1).etaV_re
  have v2 := ne_of_re_pos (hM.pas r hr.1 hr.2.1).etaV_re
  have v3 := (hM.pas s hs.1 hs.2.1).zetaV_ne
  have v4 := (hM.pas r hr.1 hr.2.1).zetaV_ne
  have h2 : ∀ x : ℝ, (x + Real.pi) * 2 = 2 * x + 2 * Real.pi := fun x => by ring
  simp only [hankelIntegrand, wavenumber, hP, j2codes, exactFactor, List.mem_cons, div4 ho, div8 ho, div8n ho,
    mul_comm θ 2, zero_mul, mul_zero, zero_add, add_zero, sub_zero, zero_sub,
    List.not_mem_nil, or_false, Nat.reduceEqDiff, OfNat.ofNat_ne_one, if_true, if_false, or_true,
    true_or, false_or, mul_one, one_mul, mul_neg, neg_neg, neg_mul, Bool.false_eq_true, and_self,
    and_false, false_and, h2, Real.cos_add_two_pi, Real.sin_add_two_pi, Real.cos_add_pi,
    Real.sin_add_pi, not_true_eq_false, not_false_eq_true,
    Bool.true_eq_false, true_and]
  push_cast
  field_simp
  try ring_nf
  try (simp only [I_sq]; ring)

theorem ring24 (hF : ∀ φ, IsPlaneField M (lam * Real.cos φ) (lam * Real.sin φ) zs s
      (unitDipole 4) (F φ))
    (hH : ∀ φ, IsPlaneField (M.homog s) (lam * Real.cos φ) (lam * Real.sin φ) zs 0
      (unitDipole 4) (Fh φ)) :
    RingClaim o M zs zr s r lam rho θ xd F Fh 2 4 24 true false := by
  have hX : (fun φ => xcomp xd s r (F φ) (Fh φ) 2 zr) = trig ((Ao' - Be) / 4) (0) (0) ((Ao' + Be) / 4) (0) := by
    funext φ
    have hsc : (Real.sin φ : ℂ) ^ 2 + (Real.cos φ : ℂ) ^ 2 - 1 = 0 := by
      have := Real.sin_sq_add_cos_sq φ
      exact_mod_cast sub_eq_zero.2 this
    refine ((plane_polar hM hlam.ne' hs hr φ (hF φ) (hH φ) R1 R2).2.1).trans ?_
    simp only [unitDipole, trig, if_true, Nat.reduceEqDiff, OfNat.ofNat_ne_one, OfNat.one_ne_ofNat,
      if_false, Real.cos_two_mul, Real.sin_two_mul]
    push_cast at hsc ⊢
    linear_combination (-Be / 2) * hsc
  have hP := (gf_ee (ab := 24) (msrc := true) hM ho hs hr hsr R1 R2).2.1 (by simp)
  unfold RingClaim
  rw [hX, ring_trig (mul_pos hlam hrho).ne']
  have hpi : (Real.pi : ℂ) ≠ 0 := by exact_mod_cast Real.pi_ne_zero
  have hrho' : (rho : ℂ) ≠ 0 := by exact_mod_cast hrho.ne'
  have hlam' : (lam : ℂ) ≠ 0 := by exact_mod_cast hlam.ne'
  have v1 := ne_of_re_pos (hM.pas s hs.1 hs.2.1).etaV_re
  have v2 := ne_of_re_pos (hM.pas r hr.1 hr.2.1).etaV_re
  have v3 := (hM.pas s hs.1 hs.2.1).zetaV_ne
  have v4 := (hM.pas r hr.1 hr.2.1).zetaV_ne
  have h2 : ∀ x : ℝ, (x + Real.pi) * 2 = 2 * x + 2 * Real.pi := fun x => by ring
  simp only [hankelIntegrand, wavenumber, hP, j2codes, exactFactor, List.mem_cons, div4 ho, div8 ho, div8n ho,
    mul_comm θ 2, zero_mul, mul_zero, zero_add, add_zero, sub_zero, zero_sub,
    List.not_mem_nil, or_false, Nat.reduceEqDiff, OfNat.ofNat_ne_one, if_true, if_false, or_true,
    true_or, false_or, mul_one, one_mul, mul_neg, neg_neg, neg_mul, Bool.false_eq_true, and_self,
    and_false, false_and, h2, Real.cos_add_two_pi, Real.sin_add_two_pi, Real.cos_add_pi,
    Real.sin_add_pi, not_true_eq_false, not_false_eq_true,
    Bool.true_eq_false, true_and]
  push_cast
  field_simp
  try ring_nf
  try (simp only [I_sq]; ring)

theorem ring25 (hF : ∀ φ, IsPlaneField M (lam * Real.cos φ) (lam * Real.sin φ) zs s
      (unitDipole 5) (F φ))
    (hH : ∀ φ, IsPlaneField (M.homog s) (lam * Real.cos φ) (lam * Real.sin φ) zs 0
      (unitDipole 5) (Fh φ)) :
    RingClaim o M zs zr s r lam rho θ xd F Fh 2 5 25 true false := by
  have hX : (fun φ => xcomp xd s r (F φ) (Fh φ) 2 zr) = trig (0) (0) (0) (0) ((Be + Ao') / 4) := by
    funext φ
    have hsc : (Real.sin φ : ℂ) ^ 2 + (Real.cos φ : ℂ) ^ 2 - 1 = 0 := by
      have := Real.sin_sq_add_cos_sq φ
      exact_mod_cast sub_eq_zero.2 this
    refine ((plane_polar hM hlam.ne' hs hr φ (hF φ) (hH φ) R1 R2).2.1).trans ?_
    simp only [unitDipole, trig, if_true, Nat.reduceEqDiff, OfNat.ofNat_ne_one, OfNat.one_ne_ofNat,
      if_false, Real.cos_two_mul, Real.sin_two_mul]
    push_cast at hsc ⊢
    linear_combination (0) * hsc
  have hP := (gf_ee (ab := 25) (msrc := true) hM ho hs hr hsr R1 R2).2.1 (by simp)
  unfold RingClaim
  rw [hX, ring_trig (mul_pos hlam hrho).ne']
  have hpi : (Real.pi : ℂ) ≠ 0 := by exact_mod_cast Real.pi_ne_zero
  have hrho' : (rho : ℂ) ≠ 0 := by exact_mod_cast hrho.ne'
  have hlam' : (lam : ℂ) ≠ 0 := by exact_mod_cast hlam.ne'
  have v1 := ne_of_re_pos (hM.pas s hs.1 hs.2.1).etaV_re
  have v2 := ne_of_re_pos (hM.pas r hr.1 hr.2.1).etaV_re
  have v3 := (hM.pas s hs.1 hs.2.1).zetaV_ne
  have v4 := (hM.pas r hr.1 hr.2.1).zetaV_ne
  have h2 : ∀ x : ℝ, (x + Real.pi) * 2 = 2 * x + 2 * Real.pi := fun x => by ring
  simp only [hankelIntegrand, wavenumber, hP, j2codes, exactFactor, List.mem_cons, div4 ho, div8 ho, div8n ho,
    mul_comm θ 2, zero_mul, mul_zero, zero_add, add_zero, sub_zero, zero_sub,
    List.not_mem_nil, or_false, Nat.reduceEqDiff, OfNat.ofNat_ne_one, if_true, if_false, or_true,
    true_or, false_or, mul_one, one_mul, mul_neg, neg_neg, neg_mul, Bool.false_eq_true, and_self,
    and_false, false_and, h2, Real.cos_add_two_pi, Real.sin_add_two_pi, Real.cos_add_pi,
    Real.sin_add_pi, not_true_eq_false, not_false_eq_true,
    Bool.true_eq_false, true_and]
  push_cast
  field_simp
  try ring_nf
  try (simp only [I_sq]; ring)

theorem ring26 (hF : ∀ φ, IsPlaneField M (lam * Real.cos φ) (lam * Real.sin φ) zs s
      (unitDipole 6) (F φ))
    (hH : ∀ φ, IsPlaneField (M.homog s) (lam * Real.cos φ) (lam * Real.sin φ) zs 0
      (unitDipole 6) (Fh φ)) :
    RingClaim o M zs zr s r lam rho θ xd F Fh 2 6 26 true false := by
  have hX : (fun φ => xcomp xd s r (F φ) (Fh φ) 2 zr) = trig (0) (-(I * (lam : ℂ) * Ae' / (2 * M.zetaV s))) (0) (0) (0) := by
    funext φ
    have hsc : (Real.sin φ : ℂ) ^ 2 + (Real.cos φ : ℂ) ^ 2 - 1 = 0 := by
      have := Real.sin_sq_add_cos_sq φ
      exact_mod_cast sub_eq_zero.2 this
    refine ((plane_polar hM hlam.ne' hs hr φ (hF φ) (hH φ) R1 R2).2.1).trans ?_
    simp only [unitDipole, trig, if_true, Nat.reduceEqDiff, OfNat.ofNat_ne_one, OfNat.one_ne_ofNat,
      if_false, Real.cos_two_mul, Real.sin_two_mul]
    push_cast at hsc ⊢
    linear_combination (0) * hsc
  have hP := (gf_ee (ab := 26) (msrc := true) hM ho hs hr hsr R1 R2).2.2.2.2.2.1 (by simp)
  unfold RingClaim
  rw [hX, ring_trig (mul_pos hlam hrho).ne']
  have hpi : (Real.pi : ℂ) ≠ 0 := by exact_mod_cast Real.pi_ne_zero
  have hrho' : (rho : ℂ) ≠ 0 := by exact_mod_cast hrho.ne'
  have hlam' : (lam : ℂ) ≠ 0 := by exact_mod_cast hlam.ne'
  have v1 := ne_of_re_pos (hM.pas s hs.1 hs.2.1).etaV_re
  have v2 := ne_of_re_pos (hM.pas r hr.1 hr.2.1).etaV_re
  have v3 := (hM.pas s hs.1 hs.2.1).zetaV_ne
  have v4 := (hM.pas r hr.1 hr.2.1).zetaV_ne
  have h2 : ∀ x : ℝ, (x + Real.pi) * 2 = 2 * x + 2 * Real.pi := fun x => by ring
  simp only [hankelIntegrand, wavenumber, hP, j2codes, exactFactor, List.mem_cons, div4 ho, div8 ho, div8n ho,
    mul_comm θ 2, zero_mul, mul_zero, zero_add, add_zero, sub_zero, zero_sub,
    List.not_mem_nil, or_false, Nat.reduceEqDiff, OfNat.ofNat_ne_one, if_true, if_false, or_true,
    true_or, false_or, mul_one, one_mul, mul_neg, neg_neg, neg_mul, Bool.false_eq_true, and_self,
    and_false, false_and, h2, Real.cos_add_two_pi, Real.sin_add_two_pi, Real.cos_add_pi,
    Real.sin_add_pi, not_true_eq_false, not_false_eq_true,
    Bool.true_eq_false, true_and]
  push_cast
  field_simp
  try ring_nf
  try (simp only [I_sq]; ring)

theorem ring31 (hF : ∀ φ, IsPlaneField M (lam * Real.cos φ) (lam * Real.sin φ) zs s
      (unitDipole 1) (F φ))
    (hH : ∀ φ, IsPlaneField (M.homog s) (lam * Real.cos φ) (lam * Real.sin φ) zs 0
      (unitDipole 1) (Fh φ)) :
    RingClaim o M zs zr s r lam rho θ xd F Fh 3 1 31 false false := by
  have hX : (fun φ => xcomp xd s r (F φ) (Fh φ) 3 zr) = trig (0) (I * (lam : ℂ) * Ao / (2 * M.etaV r)) (0) (0) (0) := by
    funext φ
    have hsc : (Real.sin φ : ℂ) ^ 2 + (Real.cos φ : ℂ) ^ 2 - 1 = 0 := by
      have := Real.sin_sq_add_cos_sq φ
      exact_mod_cast sub_eq_zero.2 this
    refine ((plane_polar hM hlam.ne' hs hr φ (hF φ) (hH φ) R1 R2).2.2.1).trans ?_
    simp only [unitDipole, trig, if_true, Nat.reduceEqDiff, OfNat.ofNat_ne_one, OfNat.one_ne_ofNat,
      if_false, Real.cos_two_mul, Real.sin_two_mul]
    push_cast at hsc ⊢
    linear_combination (0) * hsc
  have hP := (gf_ee (ab := 31) (msrc := false) hM ho hs hr hsr R1 R2).2.2.2.1 (by simp)
  unfold RingClaim
  rw [hX, ring_trig (mul_pos hlam hrho).ne']
  have hpi : (Real.pi : ℂ) ≠ 0 := by exact_mod_cast Real.pi_ne_zero
  have hrho' : (rho : ℂ) ≠ 0 := by exact_mod_cast hrho.ne'
  have hlam' : (lam : ℂ) ≠ 0 := by exact_mod_cast hlam.ne'
  have v1 := ne_of_re_pos (hM.pas s hs.1 hs.2.1).etaV_re
  have v2 := ne_of_re_pos (hM.pas r hr.1 hr.2.1).etaV_re
  have v3 := (hM.pas s hs.1 hs.2.1).zetaV_ne
  have v4 := (hM.pas r hr.1 hr.2.1).zetaV_ne
  have h2 : ∀ x : ℝ, (x + Real.pi) * 2 = 2 * x + 2 * Real.pi := fun x => by ring
  simp only [hankelIntegrand, wavenumber, hP, j2codes, exactFactor, List.mem_cons, div4 ho, div8 ho, div8n ho,
    mul_comm θ 2, zero_mul, mul_zero, zero_add, add_zero, sub_zero, zero_sub,
    List.not_mem_nil, or_false, Nat.reduceEqDiff, OfNat.ofNat_ne_one, if_true, if_false, or_true,
    true_or, false_or, mul_one, one_mul, mul_neg, neg_neg, neg_mul, Bool.false_eq_true, and_self,
    and_false, false_and, h2, Real.cos_add_two_pi, Real.sin_add_two_pi, Real.cos_add_pi,
    Real.sin_add_pi, not_true_eq_false, not_false_eq_true,
    Bool.true_eq_false, true_and]
  push_cast
  field_simp
  try ring_nf
  try (simp only [I_sq]; ring)

theorem ring32 (hF : ∀ φ, IsPlaneField M (lam * Real.cos φ) (lam * Real.sin φ) zs s
      (unitDipole 2) (F φ))
    (hH : ∀ φ, IsPlaneField (M.homog s) (lam * Real.cos φ) (lam * Real.sin φ) zs 0
      (unitDipole 2) (Fh φ)) :
    RingClaim o M zs zr s r lam rho θ xd F Fh 3 2 32 false false := by
  have hX : (fun φ => xcomp xd s r (F φ) (Fh φ) 3 zr) = trig (0) (0) (I * (lam : ℂ) * Ao / (2 * M.etaV r)) (0) (0) := by
    funext φ
    have hsc : (Real.sin φ : ℂ) ^ 2 + (Real.cos φ : ℂ) ^ 2 - 1 = 0 := by
      have := Real.sin_sq_add_cos_sq φ
      exact_mod_cast sub_eq_zero.2 this
    refine ((plane_polar hM hlam.ne' hs hr φ (hF φ) (hH φ) R1 R2).2.2.1).trans ?_
    simp only [unitDipole, trig, if_true, Nat.reduceEqDiff, OfNat.ofNat_ne_one, OfNat.one_ne_ofNat,
      if_false, Real.cos_two_mul, Real.sin_two_mul]
    push_cast at hsc ⊢
    linear_combination (0) * hsc
  have hP := (gf_ee (ab := 32) (msrc := false) hM ho hs hr hsr R1 R2).2.2.2.1 (by simp)
  unfold RingClaim
  rw [hX, ring_trig (mul_pos hlam hrho).ne']
  have hpi : (Real.pi : ℂ) ≠ 0 := by exact_mod_cast Real.pi_ne_zero
  have hrho' : (rho : ℂ) ≠ 0 := by exact_mod_cast hrho.ne'
  have hlam' : (lam : ℂ) ≠ 0 := by exact_mod_cast hlam.ne'
  have v1 := ne_of_re_pos (hM.pas s hs.1 hs.2.1).etaV_re
  have v2 := ne_of_re_pos (hM.pas r hr.1 hr.2.1).etaV_re
  have v3 := (hM.pas s hs.1 hs.2.1).zetaV_ne
  have v4 := (hM.pas r hr.1 hr.2.1).zetaV_ne
  have h2 : ∀ x : ℝ, (x + Real.pi) * 2 = 2 * x + 2 * Real.pi := fun x => by ring
  simp only [hankelIntegrand, wavenumber, hP, j2codes, exactFactor, List.mem_cons, div4 ho, div8 ho, div8n ho,
    mul_comm θ 2, zero_mul, mul_zero, zero_add, add_zero, sub_zero, zero_sub,
    List.not_mem_nil, or_false, Nat.reduceEqDiff, OfNat.ofNat_ne_one, if_true, if_false, or_true,
    true_or, false_or, mul_one, one_mul, mul_neg, neg_neg, neg_mul, Bool.false_eq_true, and_self,
    and_false, false_and, h2, Real.cos_add_two_pi, Real.sin_add_two_pi, Real.cos_add_pi,
    Real.sin_add_pi, not_true_eq_false, not_false_eq_true,
    Bool.true_eq_false, true_and]
  push_cast
  field_simp
  try ring_nf
  try (simp only [I_sq]; ring)

theorem ring33 (hF : ∀ φ, IsPlaneField M (lam * Real.cos φ) (lam * Real.sin φ) zs s
      (unitDipole 3) (F φ))
    (hH : ∀ φ, IsPlaneField (M.homog s) (lam * Real.cos φ) (lam * Real.sin φ) zs 0
      (unitDipole 3) (Fh φ)) :
    RingClaim o M zs zr s r lam rho θ xd F Fh 3 3 33 false false := by
  have hX : (fun φ => xcomp xd s r (F φ) (Fh φ) 3 zr) = trig ((lam : ℂ) ^ 2 * Ae / (2 * M.etaV s * M.etaV r)) (0) (0) (0) (0) := by
    funext φ
    have hsc : (Real.sin φ : ℂ) ^ 2 + (Real.cos φ : ℂ) ^ 2 - 1 = 0 := by
      have := Real.sin_sq_add_cos_sq φ
      exact_mod_cast sub_eq_zero.2 this
    refine ((plane_polar hM hlam.ne' hs hr φ (hF φ) (hH φ) R1 R2).2.2.1).trans ?_
    simp only [unitDipole, trig, if_true, Nat.reduceEqDiff, OfNat.ofNat_ne_one, OfNat.one_ne_ofNat,
      if_false, Real.cos_two_mul, Real.sin_two_mul]
    push_cast at hsc ⊢
    linear_combination (-(lam : ℂ)^2*Ae/(2*M.etaV s*M.etaV r))*I_mul_I
  have hP := (gf_ee (ab := 33) (msrc := false) hM ho hs hr hsr R1 R2).2.2.2.2.2.2 (by simp)
  unfold RingClaim
  rw [hX, ring_trig (mul_pos hlam hrho).ne']
  have hpi : (Real.pi : ℂ) ≠ 0 := by exact_mod_cast Real.pi_ne_zero
  have hrho' : (rho : ℂ) ≠ 0 := by exact_mod_cast hrho.ne'
  have hlam' : (lam : ℂ) ≠ 0 := by exact_mod_cast hlam.ne'
  have v1 := ne_of_re_pos (hM.pas s hs.1 hs.2.1).etaV_re
  have v2 := ne_of_re_pos (hM.pas r hr.1 hr.2.1).etaV_re
  have v3 := (hM.pas s hs.1 hs.2.1).zetaV_ne
  have v4 := (hM.pas r hr.1 hr.2.1).zetaV_ne
  have h2 : ∀ x : ℝ, (x + Real.pi) * 2 = 2 * x + 2 * Real.pi := fun x => by ring
  simp only [hankelIntegrand, wavenumber, hP, j2codes, exactFactor, List.mem_cons, div4 ho, div8 ho, div8n ho,
    mul_comm θ 2, zero_mul, mul_zero, zero_add, add_zero, sub_zero, zero_sub,
    List.not_mem_nil, or_false, Nat.reduceEqDiff, OfNat.ofNat_ne_one, if_true, if_false, or_true,
    true_or, false_or, mul_one, one_mul, mul_neg, neg_neg, neg_mul, Bool.false_eq_true, and_self,
    and_false, false_and, h2, Real.cos_add_two_pi, Real.sin_add_two_pi, Real.cos_add_pi,
    Real.sin_add_pi, not_true_eq_false, not_false_eq_true,
    Bool.true_eq_false, true_and]
  push_cast
  field_simp
  try ring_nf
  try (simp only [I_sq]; ring)

theorem ring34 (hF : ∀ φ, IsPlaneField M (lam * Real.cos φ) (lam * Real.sin φ) zs s
      (unitDipole 4) (F φ))
    (hH : ∀ φ, IsPlaneField (M.homog s) (lam * Real.cos φ) (lam * Real.sin φ) zs 0
      (unitDipole 4) (Fh φ)) :
    RingClaim o M zs zr s r lam rho θ xd F Fh 3 4 34 true false := by
  have hX : (fun φ => xcomp xd s r (F φ) (Fh φ) 3 zr) = trig (0) (0) (-(I * (lam : ℂ) * Ae / (2 * M.etaV r))) (0) (0) := by
    funext φ
    have hsc : (Real.sin φ : ℂ) ^ 2 + (Real.cos φ : ℂ) ^ 2 - 1 = 0 := by
      have := Real.sin_sq_add_cos_sq φ
      exact_mod_cast sub_eq_zero.2 this
    refine ((plane_polar hM hlam.ne' hs hr φ (hF φ) (hH φ) R1 R2).2.2.1).trans ?_
    simp only [unitDipole, trig, if_true, Nat.reduceEqDiff, OfNat.ofNat_ne_one, OfNat.one_ne_ofNat,
      if_false, Real.cos_two_mul, Real.sin_two_mul]
    push_cast at hsc ⊢
    linear_combination (0) * hsc
  have hP := (gf_ee (ab := 34) (msrc := true) hM ho hs hr hsr R1 R2).2.2.2.2.1 (by simp)
  unfold RingClaim
  rw [hX, ring_trig (mul_pos hlam hrho).ne']
  have hpi : (Real.pi : ℂ) ≠ 0 := by exact_mod_cast Real.pi_ne_zero
  have hrho' : (rho : ℂ) ≠ 0 := by exact_mod_cast hrho.ne'
  have hlam' : (lam : ℂ) ≠ 0 := by exact_mod_cast hlam.ne'
  have v1 := ne_of_re_pos (hM.pas s hs.1 hs.2.1).etaV_re
  have v2 := ne_of_re_pos (hM.pas r hr.1 hr.2.1).etaV_re
  have v3 := (hM.pas s hs.1 hs.2.1).zetaV_ne
  have v4 := (hM.pas r hr.1 hr.2.1).zetaV_ne
  have h2 : ∀ x : ℝ, (x + Real.pi) * 2 = 2 * x + 2 * Real.pi := fun x => by ring
  simp only [hankelIntegrand, wavenumber, hP, j2codes, exactFactor, List.mem_cons, div4 ho, div8 ho, div8n ho,
    mul_comm θ 2, zero_mul, mul_zero, zero_add, add_zero, sub_zero, zero_sub,
    List.not_mem_nil, or_false, Nat.reduceEqDiff, OfNat.ofNat_ne_one, if_true, if_false, or_true,
    true_or, false_or, mul_one, one_mul, mul_neg, neg_neg, neg_mul, Bool.false_eq_true, and_self,
    and_false, false_and, h2, Real.cos_add_two_pi, Real.sin_add_two_pi, Real.cos_add_pi,
    Real.sin_add_pi, not_true_eq_false, not_false_eq_true,
    Bool.true_eq_false, true_and]
  push_cast
  field_simp
  try ring_nf
  try (simp only [I_sq]; ring)

theorem ring35 (hF : ∀ φ, IsPlaneField M (lam * Real.cos φ) (lam * Real.sin φ) zs s
      (unitDipole 5) (F φ))
    (hH : ∀ φ, IsPlaneField (M.homog s) (lam * Real.cos φ) (lam * Real.sin φ) zs 0
      (unitDipole 5) (Fh φ)) :
    RingClaim o M zs zr s r lam rho θ xd F Fh 3 5 35 true false := by
  have hX : (fun φ => xcomp xd s r (F φ) (Fh φ) 3 zr) = trig (0) (I * (lam : ℂ) * Ae / (2 * M.etaV r)) (0) (0) (0) := by
    funext φ
    have hsc : (Real.sin φ : ℂ) ^ 2 + (Real.cos φ : ℂ) ^ 2 - 1 = 0 := by
      have := Real.sin_sq_add_cos_sq φ
      exact_mod_cast sub_eq_zero.2 this
    refine ((plane_polar hM hlam.ne' hs hr φ (hF φ) (hH φ) R1 R2).2.2.1).trans ?_
    simp only [unitDipole, trig, if_true, Nat.reduceEqDiff, OfNat.ofNat_ne_one, OfNat.one_ne_ofNat,
      if_false, Real.cos_two_mul, Real.sin_two_mul]
    push_cast at hsc ⊢
    linear_combination (0) * hsc
  have hP := (gf_ee (ab := 35) (msrc := true) hM ho hs hr hsr R1 R2).2.2.2.2.1 (by simp)
  unfold RingClaim
  rw [hX, ring_trig (mul_pos hlam hrho).ne']
  have hpi : (Real.pi : ℂ) ≠ 0 := by exact_mod_cast Real.pi_ne_zero
  have hrho' : (rho : ℂ) ≠ 0 := by exact_mod_cast hrho.ne'
  have hlam' : (lam : ℂ) ≠ 0 := by exact_mod_cast hlam.ne'
  have v1 := ne_of_re_pos (hM.pas s hs.1 hs.2.1).etaV_re
  have v2 := ne_of_re_pos (hM.pas r hr.1 hr.2.1).etaV_re
  have v3 := (hM.pas s hs.1 hs.2.1).zetaV_ne
  have v4 := (hM.pas r hr.1 hr.2.1).zetaV_ne
  have h2 : ∀ x : ℝ, (x + Real.pi) * 2 = 2 * x + 2 * Real.pi := fun x => by ring
  simp only [hankelIntegrand, wavenumber, hP, j2codes, exactFactor, List.mem_cons, div4 ho, div8 ho, div8n ho,
    mul_comm θ 2, zero_mul, mul_zero, zero_add, add_zero, sub_zero, zero_sub,
    List.not_mem_nil, or_false, Nat.reduceEqDiff, OfNat.ofNat_ne_one, if_true, if_false, or_true,
    true_or, false_or, mul_one, one_mul, mul_neg, neg_neg, neg_mul, Bool.false_eq_true, and_self,
    and_false, false_and, h2, Real.cos_add_two_pi, Real.sin_add_two_pi, Real.cos_add_pi,
    Real.sin_add_pi, not_true_eq_false, not_false_eq_true,
    Bool.true_eq_false, true_and]
  push_cast
  field_simp
  try ring_nf
  try (simp only [I_sq]; ring)

theorem ring36 (hF : ∀ φ, IsPlaneField M (lam * Real.cos φ) (lam * Real.sin φ) zs s
      (unitDipole 6) (F φ))
    (hH : ∀ φ, IsPlaneField (M.homog s) (lam * Real.cos φ) (lam * Real.sin φ) zs 0
      (unitDipole 6) (Fh φ)) :
    RingClaim o M zs zr s r lam rho θ xd F Fh 3 6 36 true false := by
  have hX : (fun φ => xcomp xd s r (F φ) (Fh φ) 3 zr) = trig (0) (0) (0) (0) (0) := by
    funext φ
    have hsc : (Real.sin φ : ℂ) ^ 2 + (Real.cos φ : ℂ) ^ 2 - 1 = 0 := by
      have := Real.sin_sq_add_cos_sq φ
      exact_mod_cast sub_eq_zero.2 this
    refine ((plane_polar hM hlam.ne' hs hr φ (hF φ) (hH φ) R1 R2).2.2.1).trans ?_
    simp only [unitDipole, trig, if_true, Nat.reduceEqDiff, OfNat.ofNat_ne_one, OfNat.one_ne_ofNat,
      if_false, Real.cos_two_mul, Real.sin_two_mul]
    push_cast at hsc ⊢
    linear_combination (0) * hsc
  unfold RingClaim
  rw [hX, ring_trig (mul_pos hlam hrho).ne']
  have hpi : (Real.pi : ℂ) ≠ 0 := by exact_mod_cast Real.pi_ne_zero
  have hrho' : (rho : ℂ) ≠ 0 := by exact_mod_cast hrho.ne'
  have hlam' : (lam : ℂ) ≠ 0 := by exact_mod_cast hlam.ne'
  have v1 := ne_of_re_pos (hM.pas s hs.1 hs.2.1).etaV_re
  have v2 := ne_of_re_pos (hM.pas r hr.1 hr.2.1).etaV_re
  have v3 := (hM.pas s hs.1 hs.2.1).zetaV_ne
  have v4 := (hM.pas r hr.1 hr.2.1).zetaV_ne
  have h2 : ∀ x : ℝ, (x + Real.pi) * 2 = 2 * x + 2 * Real.pi := fun x => by ring
  simp only [hankelIntegrand, wavenumber, zero_mul, j2codes, exactFactor, List.mem_cons, div4 ho, div8 ho, div8n ho,
    mul_comm θ 2, zero_mul, mul_zero, zero_add, add_zero, sub_zero, zero_sub,
    List.not_mem_nil, or_false, Nat.reduceEqDiff, OfNat.ofNat_ne_one, if_true, if_false, or_true,
    true_or, false_or, mul_one, one_mul, mul_neg, neg_neg, neg_mul, Bool.false_eq_true, and_self,
    and_false, false_and, h2, Real.cos_add_two_pi, Real.sin_add_two_pi, Real.cos_add_pi,
    Real.sin_add_pi, not_true_eq_false, not_false_eq_true,
    Bool.true_eq_false, true_and]

theorem ring41 (hF : ∀ φ, IsPlaneField M (lam * Real.cos φ) (lam * Real.sin φ) zs s
      (unitDipole 1) (F φ))
    (hH : ∀ φ, IsPlaneField (M.homog s) (lam * Real.cos φ) (lam * Real.sin φ) zs 0
      (unitDipole 1) (Fh φ)) :
    RingClaim o M zs zr s r lam rho θ xd F Fh 4 1 14 false true := by
  have hX : (fun φ => xcomp xd s r (F φ) (Fh φ) 4 zr) = trig (0) (0) (0) (0) ((Ao + Be') / 4) := by
    funext φ
    have hsc : (Real.sin φ : ℂ) ^ 2 + (Real.cos φ : ℂ) ^ 2 - 1 = 0 := by
      have := Real.sin_sq_add_cos_sq φ
      exact_mod_cast sub_eq_zero.2 this
    refine ((plane_polar hM hlam.ne' hs hr φ (hF φ) (hH φ) R1 R2).2.2.2.1).trans ?_
    simp only [unitDipole, trig, if_true, Nat.reduceEqDiff, OfNat.ofNat_ne_one, OfNat.one_ne_ofNat,
      if_false, Real.cos_two_mul, Real.sin_two_mul]
    push_cast at hsc ⊢
    linear_combination (0) * hsc
  have hP := (gf_me (ab := 14) hM ho hs hr hsr R1 R2).1 (by simp)
  unfold RingClaim
  rw [hX, ring_trig (mul_pos hlam hrho).ne']
  have hpi : (Real.pi : ℂ) ≠ 0 := by exact_mod_cast Real.pi_ne_zero
  have hrho' : (rho : ℂ) ≠ 0 := by exact_mod_cast hrho.ne'
  have hlam' : (lam : ℂ) ≠ 0 := by exact_mod_cast hlam.ne'
  have v1 := ne_of_re_pos (hM.pas s hs.1 hs.2.1).etaV_re
  have v2 := ne_of_re_pos (hM.pas r hr.1 hr.2.1).etaV_re
  have v3 := (hM.pas s hs.1 hs.2.1).zetaV_ne
  have v4 := (hM.pas r hr.1 hr.2.1).zetaV_ne
  have h2 : ∀ x : ℝ, (x + Real.pi) * 2 = 2 * x + 2 * Real.pi := fun x => by ring
  simp only [hankelIntegrand, wavenumber, hP, j2codes, exactFactor, List.mem_cons, div4 ho, div8 ho, div8n ho,
    mul_comm θ 2, zero_mul, mul_zero, zero_add, add_zero, sub_zero, zero_sub,
    List.not_mem_nil, or_false, Nat.reduceEqDiff, OfNat.ofNat_ne_one, if_true, if_false, or_true,
    true_or, false_or, mul_one, one_mul, mul_neg, neg_neg, neg_mul, Bool.false_eq_true, and_self,
    and_false, false_and, h2, Real.cos_add_two_pi, Real.sin_add_two_pi, Real.cos_add_pi,
    Real.sin_add_pi, not_true_eq_false, not_false_eq_true,
    Bool.true_eq_false, true_and]
  push_cast
  field_simp
  try ring_nf
  try (simp only [I_sq]; ring)

theorem ring42 (hF : ∀ φ, IsPlaneField M (lam * Real.cos φ) (lam * Real.sin φ) zs s
      (unitDipole 2) (F φ))
    (hH : ∀ φ, IsPlaneField (M.homog s) (lam * Real.cos φ) (lam * Real.sin φ) zs 0
      (unitDipole 2) (Fh φ)) :
    RingClaim o M zs zr s r lam rho θ xd F Fh 4 2 24 false true := by
  have hX : (fun φ => xcomp xd s r (F φ) (Fh φ) 4 zr) = trig ((Ao - Be') / 4) (0) (0) (-(Ao + Be') / 4) (0) := by
    funext φ
    have hsc : (Real.sin φ : ℂ) ^ 2 + (Real.cos φ : ℂ) ^ 2 - 1 = 0 := by
      have := Real.sin_sq_add_cos_sq φ
      exact_mod_cast sub_eq_zero.2 this
    refine ((plane_polar hM hlam.ne' hs hr φ (hF φ) (hH φ) R1 R2).2.2.2.1).trans ?_
    simp only [unitDipole, trig, if_true, Nat.reduceEqDiff, OfNat.ofNat_ne_one, OfNat.one_ne_ofNat,
      if_false, Real.cos_two_mul, Real.sin_two_mul]
    push_cast at hsc ⊢
    linear_combination (Ao / 2) * hsc
  have hP := (gf_me (ab := 24) hM ho hs hr hsr R1 R2).1 (by simp)
  unfold RingClaim
  rw [hX, ring_trig (mul_pos hlam hrho).ne']
  have hpi : (Real.pi : ℂ) ≠ 0 := by exact_mod_cast Real.pi_ne_zero
  have hrho' : (rho : ℂ) ≠ 0 := by exact_mod_cast hrho.ne'
  have hlam' : (lam : ℂ) ≠ 0 := by exact_mod_cast hlam.ne'
  have v1 := ne_of_re_pos (hM.pas s hs.1 hs.2.1).etaV_re
  have v2 := ne_of_re_pos (hM.pas r hr.1 hr.2.1).etaV_re
  have v3 := (hM.pas s hs.1 hs.2.1).zetaV_ne
  have v4 := (hM.pas r hr.1 hr.2.1).zetaV_ne
  have h2 : ∀ x : ℝ, (x + Real.pi) * 2 = 2 * x + 2 * Real.pi := fun x => by ring
  simp only [hankelIntegrand, wavenumber, hP, j2codes, exactFactor, List.mem_cons, div4 ho, div8 ho, div8n ho,
    mul_comm θ 2, zero_mul, mul_zero, zero_add, add_zero, sub_zero, zero_sub,
    List.not_mem_nil, or_false, Nat.reduceEqDiff, OfNat.ofNat_ne_one, if_true, if_false, or_true,
    true_or, false_or, mul_one, one_mul, mul_neg, neg_neg, neg_mul, Bool.false_eq_true, and_self,
    and_false, false_and, h2, Real.cos_add_two_pi, Real.sin_add_two_pi, Real.cos_add_pi,
    Real.sin_add_pi, not_true_eq_false, not_false_eq_true,
    Bool.true_eq_false, true_and]
  push_cast
  field_simp
  try ring_nf
  try (simp only [I_sq]; ring)

theorem ring43 (hF : ∀ φ, IsPlaneField M (lam * Real.cos φ) (lam * Real.sin φ) zs s
      (unitDipole 3) (F φ))
    (hH : ∀ φ, IsPlaneField (M.homog s) (lam * Real.cos φ) (lam * Real.sin φ) zs 0
      (unitDipole 3) (Fh φ)) :
    RingClaim o M zs zr s r lam rho θ xd F Fh 4 3 34 false true := by
  have hX : (fun φ => xcomp xd s r (F φ) (Fh φ) 4 zr) = trig (0) (0) (-(I * (lam : ℂ) * Ae / (2 * M.etaV s))) (0) (0) := by
    funext φ
    have hsc : (Real.sin φ : ℂ) ^ 2 + (Real.cos φ : ℂ) ^ 2 - 1 = 0 := by
      have := Real.sin_sq_add_cos_sq φ
      exact_mod_cast sub_eq_zero.2 this
    refine ((plane_polar hM hlam.ne' hs hr φ (hF φ) (hH φ) R1 R2).2.2.2.1).trans ?_
    simp only [unitDipole, trig, if_true, Nat.reduceEqDiff, OfNat.ofNat_ne_one, OfNat.one_ne_ofNat,
      if_false, Real.cos_two_mul, Real.sin_two_mul]
    push_cast at hsc ⊢
    linear_combination (0) * hsc
  have hP := (gf_me (ab := 34) hM ho hs hr hsr R1 R2).2.1 (by simp)
  unfold RingClaim
  rw [hX, ring_trig (mul_pos hlam hrho).ne']
  have hpi : (Real.pi : ℂ) ≠ 0 := by exact_mod_cast Real.pi_ne_zero
  have hrho' : (rho : ℂ) ≠ 0 := by exact_mod_cast hrho.ne'
  have hlam' : (lam : ℂ) ≠ 0 := by exact_mod_cast hlam.ne'
  have v1 := ne_of_re_pos (hM.pas s hs.1 hs.2.1).etaV_re
  have v2 := ne_of_re_pos (hM.pas r hr.1 hr.2.1).etaV_re
  have v3 := (hM.pas s hs.1 hs.2.1).zetaV_ne
  have v4 := (hM.pas r hr.1 hr.2.1).zetaV_ne
  have h2 : ∀ x : ℝ, (x + Real.pi) * 2 = 2 * x + 2 * Real.pi := fun x => by ring
  simp only [hankelIntegrand, wavenumber, hP, j2codes, exactFactor, List.mem_cons, div4 ho, div8 ho, div8n ho,
    mul_comm θ 2, zero_mul, mul_zero, zero_add, add_zero, sub_zero, zero_sub,
    List.not_mem_nil, or_false, Nat.reduceEqDiff, OfNat.ofNat_ne_one, if_true, if_false, or_true,
    true_or, false_or, mul_one, one_mul, mul_neg, neg_neg, neg_mul, Bool.false_eq_true, and_self,
    and_false, false_and, h2, Real.cos_add_two_pi, Real.sin_add_two_pi, Real.cos_add_pi,
    Real.sin_add_pi, not_true_eq_false, not_false_eq_true,
    Bool.true_eq_false, true_and]
  push_cast
  field_simp
  try ring_nf
  try (simp only [I_sq]; ring)

theorem ring44 (hF : ∀ φ, IsPlaneField M (lam * Real.cos φ) (lam * Real.sin φ) zs s
      (unitDipole 4) (F φ))
    (hH : ∀ φ, IsPlaneField (M.homog s) (lam * Real.cos φ) (lam * Real.sin φ) zs 0
      (unitDipole 4) (Fh φ)) :
    RingClaim o M zs zr s r lam rho θ xd F Fh 4 4 11 true true := by
  have hX : (fun φ => xcomp xd s r (F φ) (Fh φ) 4 zr) = trig ((Bo' - Ae) / 4) (0) (0) ((Bo' + Ae) / 4) (0) := by
    funext φ
    have hsc : (Real.sin φ : ℂ) ^ 2 + (Real.cos φ : ℂ) ^ 2 - 1 = 0 := by
      have := Real.sin_sq_add_cos_sq φ
      exact_mod_cast sub_eq_zero.2 this
    refine ((plane_polar hM hlam.ne' hs hr φ (hF φ) (hH φ) R1 R2).2.2.2.1).trans ?_
    simp only [unitDipole, trig, if_true, Nat.reduceEqDiff, OfNat.ofNat_ne_one, OfNat.one_ne_ofNat,
      if_false, Real.cos_two_mul, Real.sin_two_mul]
    push_cast at hsc ⊢
    linear_combination (-Ae / 2) * hsc
  have hP := (gf_mm (ab := 11) hM ho hs hr hsr R1 R2).1 (by simp)
  unfold RingClaim
  rw [hX, ring_trig (mul_pos hlam hrho).ne']
  have hpi : (Real.pi : ℂ) ≠ 0 := by exact_mod_cast Real.pi_ne_zero
  have hrho' : (rho : ℂ) ≠ 0 := by exact_mod_cast hrho.ne'
  have hlam' : (lam : ℂ) ≠ 0 := by exact_mod_cast hlam.ne'
  have v1 := ne_of_re_pos (hM.pas s hs.1 hs.2.1).etaV_re
  have v2 := ne_of_re_pos (hM.pas r hr.1 hr.2.1).etaV_re
  have v3 := (hM.pas s hs.1 hs.2.1).zetaV_ne
  have v4 := (hM.pas r hr.1 hr.2.1).zetaV_ne
  have h2 : ∀ x : ℝ, (x + Real.pi) * 2 = 2 * x + 2 * Real.pi := fun x => by ring
  simp only [hankelIntegrand, wavenumber, hP, j2codes, exactFactor, List.mem_cons, div4 ho, div8 ho, div8n ho,
    mul_comm θ 2, zero_mul, mul_zero, zero_add, add_zero, sub_zero, zero_sub,
    List.not_mem_nil, or_false, Nat.reduceEqDiff, OfNat.ofNat_ne_one, if_true, if_false, or_true,
    true_or, false_or, mul_one, one_mul, mul_neg, neg_neg, neg_mul, Bool.false_eq_true, and_self,
    and_false, false_and, h2, Real.cos_add_two_pi, Real.sin_add_two_pi, Real.cos_add_pi,
    Real.sin_add_pi, not_true_eq_false, not_false_eq_true,
    Bool.true_eq_false, true_and]
  push_cast
  field_simp
  try ring_nf
  try (simp only [I_sq]; ring)

theorem ring45 (hF : ∀ φ, IsPlaneField M (lam * Real.cos φ) (lam * Real.sin φ) zs s
      (unitDipole 5) (F φ))
    (hH : ∀ φ, IsPlaneField (M.homog s) (lam * Real.cos φ) (lam * Real.sin φ) zs 0
      (unitDipole 5) (Fh φ)) :
    RingClaim o M zs zr s r lam rho θ xd F Fh 4 5 12 true true := by
  have hX : (fun φ => xcomp xd s r (F φ) (Fh φ) 4 zr) = trig (0) (0) (0) (0) ((Bo' + Ae) / 4) := by
    funext φ
    have hsc : (Real.sin φ : ℂ) ^ 2 + (Real.cos φ : ℂ) ^ 2 - 1 = 0 := by
      have := Real.sin_sq_add_cos_sq φ
      exact_mod_cast sub_eq_zero.2 this
    refine ((plane_polar hM hlam.ne' hs hr φ (hF φ) (hH φ) R1 R2).2.2.2.1).trans ?_
    simp only [unitDipole, trig, if_true, Nat.reduceEqDiff, OfNat.ofNat_ne_one, OfNat.one_ne_ofNat,
      if_false, Real.cos_two_mul, Real.sin_two_mul]
    push_cast at hsc ⊢
    linear_combination (0) * hsc
  have hP := (gf_mm (ab := 12) hM ho hs hr hsr R1 R2).1 (by simp)
  unfold RingClaim
  rw [hX, ring_trig (mul_pos hlam hrho).ne']
  have hpi : (Real.pi : ℂ) ≠ 0 := by exact_mod_cast Real.pi_ne_zero
  have hrho' : (rho : ℂ) ≠ 0 := by exact_mod_cast hrho.ne'
  have hlam' : (lam : ℂ) ≠ 0 := by exact_mod_cast hlam.ne'
  have v1 := ne_of_re_pos (hM.pas s hs.1 hs.2.1).etaV_re
  have v2 := ne_of_re_pos (hM.pas r hr.1 hr.2.1).etaV_re
  have v3 := (hM.pas s hs.1 hs.2.1).zetaV_ne
  have v4 := (hM.pas r hr.1 hr.2.1).zetaV_ne
  have h2 : ∀ x : ℝ, (x + Real.pi) * 2 = 2 * x + 2 * Real.pi := fun x => by ring
  simp only [hankelIntegrand, wavenumber, hP, j2codes, exactFactor, List.mem_cons, div4 ho, div8 ho, div8n ho,
    mul_comm θ 2, zero_mul, mul_zero, zero_add, add_zero, sub_zero, zero_sub,
    List.not_mem_nil, or_false, Nat.reduceEqDiff, OfNat.ofNat_ne_one, if_true, if_false, or_true,
    true_or, false_or, mul_one, one_mul, mul_neg, neg_neg, neg_mul, Bool.false_eq_true, and_self,
    and_false, false_and, h2, Real.cos_add_two_pi, Real.sin_add_two_pi, Real.cos_add_pi,
    Real.sin_add_pi, not_true_eq_false, not_false_eq_true,
    Bool.true_eq_false, true_and]
  push_cast
  field_simp
  try ring_nf
  try (simp only [I_sq]; ring)

theorem ring46 (hF : ∀ φ, IsPlaneField M (lam * Real.cos φ) (lam * Real.sin φ) zs s
      (unitDipole 6) (F φ))
    (hH : ∀ φ, IsPlaneField (M.homog s) (lam * Real.cos φ) (lam * Real.sin φ) zs 0
      (unitDipole 6) (Fh φ)) :
    RingClaim o M zs zr s r lam rho θ xd F Fh 4 6 13 true true := by
  have hX : (fun φ => xcomp xd s r (F φ) (Fh φ) 4 zr) = trig (0) (-(I * (lam : ℂ) * Be' / (2 * M.zetaV s))) (0) (0) (0) := by
    funext φ
    have hsc : (Real.sin φ : ℂ) ^ 2 + (Real.cos φ : ℂ) ^ 2 - 1 = 0 := by
      have := Real.sin_sq_add_cos_sq φ
      exact_mod_cast sub_eq_zero.2 this
    refine ((plane_polar hM hlam.ne' hs hr φ (hF φ) (hH φ) R1 R2).2.2.2.1).trans ?_
    simp only [unitDipole, trig, if_true, Nat.reduceEqDiff, OfNat.ofNat_ne_one, OfNat.one_ne_ofNat,
      if_false, Real.cos_two_mul, Real.sin_two_mul]
    push_cast at hsc ⊢
    linear_combination (0) * hsc
  have hP := (gf_mm (ab := 13) hM ho hs hr hsr R1 R2).2.1 (by simp)
  unfold RingClaim
  rw [hX, ring_trig (mul_pos hlam hrho).ne']
  have hpi : (Real.pi : ℂ) ≠ 0 := by exact_mod_cast Real.pi_ne_zero
  have hrho' : (rho : ℂ) ≠ 0 := by exact_mod_cast hrho.ne'
  have hlam' : (lam : ℂ) ≠ 0 := by exact_mod_cast hlam.ne'
  have v1 := ne_of_re_pos (hM.pas s hs.1 hs.2.1).etaV_re
  have v2 := ne_of_re_pos (hM.pas r hr.1 hr.2.1).etaV_re
  have v3 := (hM.pas s hs.1 hs.2.1).zetaV_ne
  have v4 := (hM.pas r hr.1 hr.2.1).zetaV_ne
  have h2 : ∀ x : ℝ, (x + Real.pi) * 2 = 2 * x + 2 * Real.pi := fun x => by ring
  simp only [hankelIntegrand, wavenumber, hP, j2codes, exactFactor, List.mem_cons, div4 ho, div8 ho, div8n ho,
    mul_comm θ 2, zero_mul, mul_zero, zero_add, add_zero, sub_zero, zero_sub,
    List.not_mem_nil, or_false, Nat.reduceEqDiff, OfNat.ofNat_ne_one, if_true, if_false, or_true,
    true_or, false_or, mul_one, one_mul, mul_neg, neg_neg, neg_mul, Bool.false_eq_true, and_self,
    and_false, false_and, h2, Real.cos_add_two_pi, Real.sin_add_two_pi, Real.cos_add_pi,
    Real.sin_add_pi, not_true_eq_false, not_false_eq_true,
    Bool.true_eq_false, true_and]
  push_cast
  field_simp
  try ring_nf
  try (simp only [I_sq]; ring)

theorem ring51 (hF : ∀ φ, IsPlaneField M (lam * Real.cos φ) (lam * Real.sin φ) zs s
      (unitDipole 1) (F φ))
    (hH : ∀ φ, IsPlaneField (M.homog s) (lam * Real.cos φ) (lam * Real.sin φ) zs 0
      (unitDipole 1) (Fh φ)) :
    RingClaim o M zs zr s r lam rho θ xd F Fh 5 1 15 false true := by
  have hX : (fun φ => xcomp xd s r (F φ) (Fh φ) 5 zr) = trig ((Be' - Ao) / 4) (0) (0) (-(Ao + Be') / 4) (0) := by
    funext φ
    have hsc : (Real.sin φ : ℂ) ^ 2 + (Real.cos φ : ℂ) ^ 2 - 1 = 0 := by
      have := Real.sin_sq_add_cos_sq φ
      exact_mod_cast sub_eq_zero.2 this
    refine ((plane_polar hM hlam.ne' hs hr φ (hF φ) (hH φ) R1 R2).2.2.2.2.1).trans ?_
    simp only [unitDipole, trig, if_true, Nat.reduceEqDiff, OfNat.ofNat_ne_one, OfNat.one_ne_ofNat,
      if_false, Real.cos_two_mul, Real.sin_two_mul]
    push_cast at hsc ⊢
    linear_combination (Be' / 2) * hsc
  have hP := (gf_me (ab := 15) hM ho hs hr hsr R1 R2).1 (by simp)
  unfold RingClaim
  rw [hX, ring_trig (mul_pos hlam hrho).ne']
  have hpi : (Real.pi : ℂ) ≠ 0 := by exact_mod_cast Real.pi_ne_zero
  have hrho' : (rho : ℂ) ≠ 0 := by exact_mod_cast hrho.ne'
  have hlam' : (lam : ℂ) ≠ 0 := by exact_mod_cast hlam.ne'
  have v1 := ne_of_re_pos (hM.pas s hs.1 hs.2.1).etaV_re
  have v2 := ne_of_re_pos (hM.pas r hr.1 hr.2.1).etaV_re
  have v3 := (hM.pas s hs.1 hs.2.1).zetaV_ne
  have v4 := (hM.pas r hr.1 hr.2.1).zetaV_ne
  have h2 : ∀ x : ℝ, (x + Real.pi) * 2 = 2 * x + 2 * Real.pi := fun x => by ring
  simp only [hankelIntegrand, wavenumber, hP, j2codes, exactFactor, List.mem_cons, div4 ho, div8 ho, div8n ho,
    mul_comm θ 2, zero_mul, mul_zero, zero_add, add_zero, sub_zero, zero_sub,
    List.not_mem_nil, or_false, Nat.reduceEqDiff, OfNat.ofNat_ne_one, if_true, if_false, or_true,
    true_or, false_or, mul_one, one_mul, mul_neg, neg_neg, neg_mul, Bool.false_eq_true, and_self,
    and_false, false_and, h2, Real.cos_add_two_pi, Real.sin_add_two_pi, Real.cos_add_pi,
    Real.sin_add_pi, not_true_eq_false, not_false_eq_true,
    Bool.true_eq_false, true_and]
  push_cast
  field_simp
  try ring_nf
  try (simp only [I_sq]; ring)

theorem ring52 (hF : ∀ φ, IsPlaneField M (lam * Real.cos φ) (lam * Real.sin φ) zs s
      (unitDipole 2) (F φ))
    (hH : ∀ φ, IsPlaneField (M.homog s) (lam * Real.cos φ) (lam * Real.sin φ) zs 0
      (unitDipole 2) (Fh φ)) :
    RingClaim o M zs zr s r lam rho θ xd F Fh 5 2 25 false true := by
  have hX : (fun φ => xcomp xd s r (F φ) (Fh φ) 5 zr) = trig (0) (0) (0) (0) (-(Ao + Be') / 4) := by
    funext φ
    have hsc : (Real.sin φ : ℂ) ^ 2 + (Real.cos φ : ℂ) ^ 2 - 1 = 0 := by
      have := Real.sin_sq_add_cos_sq φ
      exact_mod_cast sub_eq_zero.2 this
    refine ((plane_polar hM hlam.ne' hs hr φ (hF φ) (hH φ) R1 R2).2.2.2.2.1).trans ?_
    simp only [unitDipole, trig, if_true, Nat.reduceEqDiff, OfNat.ofNat_ne_one, OfNat.one_ne_ofNat,
      if_false, Real.cos_two_mul, Real.sin_two_mul]
    push_cast at hsc ⊢
    linear_combination (0) * hsc
  have hP := (gf_me (ab := 25) hM ho hs hr hsr R1 R2).1 (by simp)
  unfold RingClaim
  rw [hX, ring_trig (mul_pos hlam hrho).ne']
  have hpi : (Real.pi : ℂ) ≠ 0 := by exact_mod_cast Real.pi_ne_zero
  have hrho' : (rho : ℂ) ≠ 0 := by exact_mod_cast hrho.ne'
  have hlam' : (lam : ℂ) ≠ 0 := by exact_mod_cast hlam.ne'
  have v1 := ne_of_re_pos (hM.pas s hs.1 hs.2.1).etaV_re
  have v2 := ne_of_re_pos (hM.pas r hr.1 hr.2.1).etaV_re
  have v3 := (hM.pas s hs.1 hs.2.1).zetaV_ne
  have v4 := (hM.pas r hr.1 hr.2.1).zetaV_ne
  have h2 : ∀ x : ℝ, (x + Real.pi) * 2 = 2 * x + 2 * Real.pi := fun x => by ring
  simp only [hankelIntegrand, wavenumber, hP, j2codes, exactFactor, List.mem_cons, div4 ho, div8 ho, div8n ho,
    mul_comm θ 2, zero_mul, mul_zero, zero_add, add_zero, sub_zero, zero_sub,
    List.not_mem_nil, or_false, Nat.reduceEqDiff, OfNat.ofNat_ne_one, if_true, if_false, or_true,
    true_or, false_or, mul_one, one_mul, mul_neg, neg_neg, neg_mul, Bool.false_eq_true, and_self,
    and_false, false_and, h2, Real.cos_add_two_pi, Real.sin_add_two_pi, Real.cos_add_pi,
    Real.sin_add_pi, not_true_eq_false, not_false_eq_true,
    Bool.true_eq_false, true_and]
  push_cast
  field_simp
  try ring_nf
  try (simp only [I_sq]; ring)

theorem ring53 (hF : ∀ φ, IsPlaneField M (lam * Real.cos φ) (lam * Real.sin φ) zs s
      (unitDipole 3) (F φ))
    (hH : ∀ φ, IsPlaneField (M.homog s) (lam * Real.cos φ) (lam * Real.sin φ) zs 0
      (unitDipole 3) (Fh φ)) :
    RingClaim o M zs zr s r lam rho θ xd F Fh 5 3 35 false true := by
  have hX : (fun φ => xcomp xd s r (F φ) (Fh φ) 5 zr) = trig (0) (I * (lam : ℂ) * Ae / (2 * M.etaV s)) (0) (0) (0) := by
    funext φ
    have hsc : (Real.sin φ : ℂ) ^ 2 + (Real.cos φ : ℂ) ^ 2 - 1 = 0 := by
      have := Real.sin_sq_add_cos_sq φ
      exact_mod_cast sub_eq_zero.2 this
    refine ((plane_polar hM hlam.ne' hs hr φ (hF φ) (hH φ) R1 R2).2.2.2.2.1).trans ?_
    simp only [unitDipole, trig, if_true, Nat.reduceEqDiff, OfNat.ofNat_ne_one, OfNat.one_ne_ofNat,
      if_false, Real.cos_two_mul, Real.sin_two_mul]
    push_cast at hsc ⊢
    linear_combination (0) * hsc
  have hP := (gf_me (ab := 35) hM ho hs hr hsr R1 R2).2.1 (by simp)
  unfold RingClaim
  rw [hX, ring_trig (mul_pos hlam hrho).ne']
  have hpi : (Real.pi : ℂ) ≠ 0 := by exact_mod_cast Real.pi_ne_zero
  have hrho' : (rho : ℂ) ≠ 0 := by exact_mod_cast hrho.ne'
  have hlam' : (lam : ℂ) ≠ 0 := by exact_mod_cast hlam.ne'
  have v1 := ne_of_re_pos (hM.pas s hs.1 hs.2.1).etaV_re
  have v2 := ne_of_re_pos (hM.pas r hr.1 hr.2.1).etaV_re
  have v3 := (hM.pas s hs.1 hs.2.1).zetaV_ne
  have v4 := (hM.pas r hr.1 hr.2.1).zetaV_ne
  have h2 : ∀ x : ℝ, (x + Real.pi) * 2 = 2 * x + 2 * Real.pi := fun x => by ring
  simp only [hankelIntegrand, wavenumber, hP, j2codes, exactFactor, List.mem_cons, div4 ho, div8 ho, div8n ho,
    mul_comm θ 2, zero_mul, mul_zero, zero_add, add_zero, sub_zero, zero_sub,
    List.not_mem_nil, or_false, Nat.reduceEqDiff, OfNat.ofNat_ne_one, if_true, if_false, or_true,
    true_or, false_or, mul_one, one_mul, mul_neg, neg_neg, neg_mul, Bool.false_eq_true, and_self,
    and_false, false_and, h2, Real.cos_add_two_pi, Real.sin_add_two_pi, Real.cos_add_pi,
    Real.sin_add_pi, not_true_eq_false, not_false_eq_true,
    Bool.true_eq_false, true_and]
  push_cast
  field_simp
  try ring_nf
  try (simp only [I_sq]; ring)

theorem ring54 (hF : ∀ φ, IsPlaneField M (lam * Real.cos φ) (lam * Real.sin φ) zs s
      (unitDipole 4) (F φ))
    (hH : ∀ φ, IsPlaneField (M.homog s) (lam * Real.cos φ) (lam * Real.sin φ) zs 0
      (unitDipole 4) (Fh φ)) :
    RingClaim o M zs zr s r lam rho θ xd F Fh 5 4 21 true true := by
  have hX : (fun φ => xcomp xd s r (F φ) (Fh φ) 5 zr) = trig (0) (0) (0) (0) ((Bo' + Ae) / 4) := by
    funext φ
    have hsc : (Real.sin φ : ℂ) ^ 2 + (Real.cos φ : ℂ) ^ 2 - 1 = 0 := by
      have := Real.sin_sq_add_cos_sq φ
      exact_mod_cast sub_eq_zero.2 this
    refine ((plane_polar hM hlam.ne' hs hr φ (hF φ) (hH φ) R1 R2).2.2.2.2.1).trans ?_
    simp only [unitDipole, trig, if_true, Nat.reduceEqDiff, OfNat.ofNat_ne_one, OfNat.one_ne_ofNat,
      if_false, Real.cos_two_mul, Real.sin_two_mul]
    push_cast at hsc ⊢
    linear_combination (0) * hsc
  have hP := (gf_mm (ab := 21) hM ho hs hr hsr R1 R2).1 (by simp)
  unfold RingClaim
  rw [hX, ring_trig (mul_pos hlam hrho).ne']
  have hpi : (Real.pi : ℂ) ≠ 0 := by exact_mod_cast Real.pi_ne_zero
  have hrho' : (rho : ℂ) ≠ 0 := by exact_mod_cast hrho.ne'
  have hlam' : (lam : ℂ) ≠ 0 := by exact_mod_cast hlam.ne'
  have v1 := ne_of_re_pos (hM.pas s hs.1 hs.2.1).etaV_re
  have v2 := ne_of_re_pos (hM.pas r hr.1 hr.2.1).etaV_re
  have v3 := (hM.pas s hs.1 hs.2.1).zetaV_ne
  have v4 := (hM.pas r hr.1 hr.2.1).zetaV_ne
  have h2 : ∀ x : ℝ, (x + Real.pi) * 2 = 2 * x + 2 * Real.pi := fun x => by ring
  simp only [hankelIntegrand, wavenumber, hP, j2codes, exactFactor, List.mem_cons, div4 ho, div8 ho, div8n ho,
    mul_comm θ 2, zero_mul, mul_zero, zero_add, add_zero, sub_zero, zero_sub,
    List.not_mem_nil, or_false, Nat.reduceEqDiff, OfNat.ofNat_ne_one, if_true, if_false, or_true,
    true_or, false_or, mul_one, one_mul, mul_neg, neg_neg, neg_mul, Bool.false_eq_true, and_self,
    and_false, false_and, h2, Real.cos_add_two_pi, Real.sin_add_two_pi, Real.cos_add_pi,
    Real.sin_add_pi, not_true_eq_false, not_false_eq_true,
    Bool.true_eq_false, true_and]
  push_cast
  field_simp
  try ring_nf
  try (simp only [I_sq]; ring)

theorem ring55 (hF : ∀ φ, IsPlaneField M (lam * Real.cos φ) (lam * Real.sin φ) zs s
      (unitDipole 5) (F φ))
    (hH : ∀ φ, IsPlaneField (M.homog s) (lam * Real.cos φ) (lam * Real.sin φ) zs 0
      (unitDipole 5) (Fh φ)) :
    RingClaim o M zs zr s r lam rho θ xd F Fh 5 5 22 true true := by
  have hX : (fun φ => xcomp xd s r (F φ) (Fh φ) 5 zr) = trig ((Bo' - Ae) / 4) (0) (0) (-(Bo' + Ae) / 4) (0) := by
    funext φ
    have hsc : (Real.sin φ : ℂ) ^ 2 + (Real.cos φ : ℂ) ^ 2 - 1 = 0 := by
      have := Real.sin_sq_add_cos_sq φ
      exact_mod_cast sub_eq_zero.2 this
    refine ((plane_polar hM hlam.ne' hs hr φ (hF φ) (hH φ) R1 R2).2.2.2.2.1).trans ?_
    simp only [unitDipole, trig, if_true, Nat.reduceEqDiff, OfNat.ofNat_ne_one, OfNat.one_ne_ofNat,
      if_false, Real.cos_two_mul, Real.sin_two_mul]
    push_cast at hsc ⊢
    linear_combination (Bo' / 2) * hsc
  have hP := (gf_mm (ab := 22) hM ho hs hr hsr R1 R2).1 (by simp)
  unfold RingClaim
  rw [hX, ring_trig (mul_pos hlam hrho).ne']
  have hpi : (Real.pi : ℂ) ≠ 0 := by exact_mod_cast Real.pi_ne_zero
  have hrho' : (rho : ℂ) ≠ 0 := by exact_mod_cast hrho.ne'
  have hlam' : (lam : ℂ) ≠ 0 := by exact_mod_cast hlam.ne'
  have v1 := ne_of_re_pos (hM.pas s hs.1 hs.2.1).etaV_re
  have v2 := ne_of_re_pos (hM.pas r hr.1 hr.2.1).etaV_re
  have v3 := (hM.pas s hs.1 hs.2.1).zetaV_ne
  have v4 := (hM.pas r hr.1 hr.2.1).zetaV_ne
  have h2 : ∀ x : ℝ, (x + Real.pi) * 2 = 2 * x + 2 * Real.pi := fun x => by ring
  simp only [hankelIntegrand, wavenumber, hP, j2codes, exactFactor, List.mem_cons, div4 ho, div8 ho, div8n ho,
    mul_comm θ 2, zero_mul, mul_zero, zero_add, add_zero, sub_zero, zero_sub,
    List.not_mem_nil, or_false, Nat.reduceEqDiff, OfNat.ofNat_ne_one, if_true, if_false, or_true,
    true_or, false_or, mul_one, one_mul, mul_neg, neg_neg, neg_mul, Bool.false_eq_true, and_self,
    and_false, false_and, h2, Real.cos_add_two_pi, Real.sin_add_two_pi, Real.cos_add_pi,
    Real.sin_add_pi, not_true_eq_false, not_false_eq_true,
    Bool.true_eq_false, true_and]
  push_cast
  field_simp
  try ring_nf
  try (simp only [I_sq]; ring)

theorem ring56 (hF : ∀ φ, IsPlaneField M (lam * Real.cos φ) (lam * Real.sin φ) zs s
      (unitDipole 6) (F φ))
    (hH : ∀ φ, IsPlaneField (M.homog s) (lam * Real.cos φ) (lam * Real.sin φ) zs 0
      (unitDipole 6) (Fh φ)) :
    RingClaim o M zs zr s r lam rho θ xd F Fh 5 6 23 true true := by
  have hX : (fun φ => xcomp xd s r (F φ) (Fh φ) 5 zr) = trig (0) (0) (-(I * (lam : ℂ) * Be' / (2 * M.zetaV s))) (0) (0) := by
    funext φ
    have hsc : (Real.sin φ : ℂ) ^ 2 + (Real.cos φ : ℂ) ^ 2 - 1 = 0 := by
      have := Real.sin_sq_add_cos_sq φ
      exact_mod_cast sub_eq_zero.2 this
    refine ((plane_polar hM hlam.ne' hs hr φ (hF φ) (hH φ) R1 R2).2.2.2.2.1).trans ?_
    simp only [unitDipole, trig, if_true, Nat.reduceEqDiff, OfNat.ofNat_ne_one, OfNat.one_ne_ofNat,
      if_false, Real.cos_two_mul, Real.sin_two_mul]
    push_cast at hsc ⊢
    linear_combination (0) * hsc
  have hP := (gf_mm (ab := 23) hM ho hs hr hsr R1 R2).2.1 (by simp)
  unfold RingClaim
  rw [hX, ring_trig (mul_pos hlam hrho).ne']
  have hpi : (Real.pi : ℂ) ≠ 0 := by exact_mod_cast Real.pi_ne_zero
  have hrho' : (rho : ℂ) ≠ 0 := by exact_mod_cast hrho.ne'
  have hlam' : (lam : ℂ) ≠ 0 := by exact_mod_cast hlam.ne'
  have v1 := ne_of_re_pos (hM.pas s hs.1 hs.2.1).etaV_re
  have v2 := ne_of_re_pos (hM.pas r hr.1 hr.2.1).etaV_re
  have v3 := (hM.pas s hs.1 hs.2.1).zetaV_ne
  have v4 := (hM.pas r hr.1 hr.2.1).zetaV_ne
  have h2 : ∀ x : ℝ, (x + Real.pi) * 2 = 2 * x + 2 * Real.pi := fun x => by ring
  simp only [hankelIntegrand, wavenumber, hP, j2codes, exactFactor, List.mem_cons, div4 ho, div8 ho, div8n ho,
    mul_comm θ 2, zero_mul, mul_zero, zero_add, add_zero, sub_zero, zero_sub,
    List.not_mem_nil, or_false, Nat.reduceEqDiff, OfNat.ofNat_ne_one, if_true, if_false, or_true,
    true_or, false_or, mul_one, one_mul, mul_neg, neg_neg, neg_mul, Bool.false_eq_true, and_self,
    and_false, false_and, h2, Real.cos_add_two_pi, Real.sin_add_two_pi, Real.cos_add_pi,
    Real.sin_add_pi, not_true_eq_false, not_false_eq_true,
    Bool.true_eq_false, true_and]
  push_cast
  field_simp
  try ring_nf
  try (simp only [I_sq]; ring)

theorem ring61 (hF : ∀ φ, IsPlaneField M (lam * Real.cos φ) (lam * Real.sin φ) zs s
      (unitDipole 1) (F φ))
    (hH : ∀ φ, IsPlaneField (M.homog s) (lam * Real.cos φ) (lam * Real.sin φ) zs 0
      (unitDipole 1) (Fh φ)) :
    RingClaim o M zs zr s r lam rho θ xd F Fh 6 1 16 false true := by
  have hX : (fun φ => xcomp xd s r (F φ) (Fh φ) 6 zr) = trig (0) (0) (I * (lam : ℂ) * Ae' / (2 * M.zetaV r)) (0) (0) := by
    funext φ
    have hsc : (Real.sin φ : ℂ) ^ 2 + (Real.cos φ : ℂ) ^ 2 - 1 = 0 := by
      have := Real.sin_sq_add_cos_sq φ
      exact_mod_cast sub_eq_zero.2 this
    refine ((plane_polar hM hlam.ne' hs hr φ (hF φ) (hH φ) R1 R2).2.2.2.2.2).trans ?_
    simp only [unitDipole, trig, if_true, Nat.reduceEqDiff, OfNat.ofNat_ne_one, OfNat.one_ne_ofNat,
      if_false, Real.cos_two_mul, Real.sin_two_mul]
    push_cast at hsc ⊢
    linear_combination (0) * hsc
  have hP := (gf_me (ab := 16) hM ho hs hr hsr R1 R2).2.2 (by simp)
  unfold RingClaim
  rw [hX, ring_trig (mul_pos hlam hrho).ne']
  have hpi : (Real.pi : ℂ) ≠ 0 := by exact_mod_cast Real.pi_ne_zero
  have hrho' : (rho : ℂ) ≠ 0 := by exact_mod_cast hrho.ne'
  have hlam' : (lam : ℂ) ≠ 0 := by exact_mod_cast hlam.ne'
  have v1 := ne_of_re_pos (hM.pas s hs.1 hs.2.1).etaV_re
  have v2 := ne_of_re_pos (hM.pas r hr.1 hr.2.1).etaV_re
  have v3 := (hM.pas s hs.1 hs.2.1).zetaV_ne
  have v4 := (hM.pas r hr.1 hr.2.1).zetaV_ne
  have h2 : ∀ x : ℝ, (x + Real.pi) * 2 = 2 * x + 2 * Real.pi := fun x => by ring
  simp only [hankelIntegrand, wavenumber, hP, j2codes, exactFactor, List.mem_cons, div4 ho, div8 ho, div8n ho,
    mul_comm θ 2, zero_mul, mul_zero, zero_add, add_zero, sub_zero, zero_sub,
    List.not_mem_nil, or_false, Nat.reduceEqDiff, OfNat.ofNat_ne_one, if_true, if_false, or_true,
    true_or, false_or, mul_one, one_mul, mul_neg, neg_neg, neg_mul, Bool.false_eq_true, and_self,
    and_false, false_and, h2, Real.cos_add_two_pi, Real.sin_add_two_pi, Real.cos_add_pi,
    Real.sin_add_pi, not_true_eq_false, not_false_eq_true,
    Bool.true_eq_false, true_and]
  push_cast
  field_simp
  try ring_nf
  try (simp only [I_sq]; ring)

theorem ring62 (hF : ∀ φ, IsPlaneField M (lam * Real.cos φ) (lam * Real.sin φ) zs s
      (unitDipole 2) (F φ))
    (hH : ∀ φ, IsPlaneField (M.homog s) (lam * Real.cos φ) (lam * Real.sin φ) zs 0
      (unitDipole 2) (Fh φ)) :
    RingClaim o M zs zr s r lam rho θ xd F Fh 6 2 26 false true := by
  have hX : (fun φ => xcomp xd s r (F φ) (Fh φ) 6 zr) = trig (0) (-(I * (lam : ℂ) * Ae' / (2 * M.zetaV r))) (0) (0) (0) := by
    funext φ
    have hsc : (Real.sin φ : ℂ) ^ 2 + (Real.cos φ : ℂ) ^ 2 - 1 = 0 := by
      have := Real.sin_sq_add_cos_sq φ
      exact_mod_cast sub_eq_zero.2 this
    refine ((plane_polar hM hlam.ne' hs hr φ (hF φ) (hH φ) R1 R2).2.2.2.2.2).trans ?_
    simp only [unitDipole, trig, if_true, Nat.reduceEqDiff, OfNat.ofNat_ne_one, OfNat.one_ne_ofNat,
      if_false, Real.cos_two_mul, Real.sin_two_mul]
    push_cast at hsc ⊢
    linear_combination (0) * hsc
  have hP := (gf_me (ab := 26) hM ho hs hr hsr R1 R2).2.2 (by simp)
  unfold RingClaim
  rw [hX, ring_trig (mul_pos hlam hrho).ne']
  have hpi : (Real.pi : ℂ) ≠ 0 := by exact_mod_cast Real.pi_ne_zero
  have hrho' : (rho : ℂ) ≠ 0 := by exact_mod_cast hrho.ne'
  have hlam' : (lam : ℂ) ≠ 0 := by exact_mod_cast hlam.ne'
  have v1 := ne_of_re_pos (hM.pas s hs.1 hs.2.1).etaV_re
  have v2 := ne_of_re_pos (hM.pas r hr.1 hr.2.1).etaV_re
  have v3 := (hM.pas s hs.1 hs.2.1).zetaV_ne
  have v4 := (hM.pas r hr.1 hr.2.1).zetaV_ne
  have h2 : ∀ x : ℝ, (x + Real.pi) * 2 = 2 * x + 2 * Real.pi := fun x => by ring
  simp only [hankelIntegrand, wavenumber, hP, j2codes, exactFactor, List.mem_cons, div4 ho, div8 ho, div8n ho,
    mul_comm θ 2, zero_mul, mul_zero, zero_add, add_zero, sub_zero, zero_sub,
    List.not_mem_nil, or_false, Nat.reduceEqDiff, OfNat.ofNat_ne_one, if_true, if_false, or_true,
    true_or, false_or, mul_one, one_mul, mul_neg, neg_neg, neg_mul, Bool.false_eq_true, and_self,
    and_false, false_and, h2, Real.cos_add_two_pi, Real.sin_add_two_pi, Real.cos_add_pi,
    Real.sin_add_pi, not_true_eq_false, not_false_eq_true,
    Bool.true_eq_false, true_and]
  push_cast
  field_simp
  try ring_nf
  try (simp only [I_sq]; ring)

theorem ring63 (hF : ∀ φ, IsPlaneField M (lam * Real.cos φ) (lam * Real.sin φ) zs s
      (unitDipole 3) (F φ))
    (hH : ∀ φ, IsPlaneField (M.homog s) (lam * Real.cos φ) (lam * Real.sin φ) zs 0
      (unitDipole 3) (Fh φ)) :
    RingClaim o M zs zr s r lam rho θ xd F Fh 6 3 36 false true := by
  have hX : (fun φ => xcomp xd s r (F φ) (Fh φ) 6 zr) = trig (0) (0) (0) (0) (0) := by
    funext φ
    have hsc : (Real.sin φ : ℂ) ^ 2 + (Real.cos φ : ℂ) ^ 2 - 1 = 0 := by
      have := Real.sin_sq_add_cos_sq φ
      exact_mod_cast sub_eq_zero.2 this
    refine ((plane_polar hM hlam.ne' hs hr φ (hF φ) (hH φ) R1 R2).2.2.2.2.2).trans ?_
    simp only [unitDipole, trig, if_true, Nat.reduceEqDiff, OfNat.ofNat_ne_one, OfNat.one_ne_ofNat,
      if_false, Real.cos_two_mul, Real.sin_two_mul]
    push_cast at hsc ⊢
    linear_combination (0) * hsc
  unfold RingClaim
  rw [hX, ring_trig (mul_pos hlam hrho).ne']
  have hpi : (Real.pi : ℂ) ≠ 0 := by exact_mod_cast Real.pi_ne_zero
  have hrho' : (rho : ℂ) ≠ 0 := by exact_mod_cast hrho.ne'
  have hlam' : (lam : ℂ) ≠ 0 := by exact_mod_cast hlam.ne'
  have v1 := ne_of_re_pos (hM.pas s hs.1 hs.2.1).etaV_re
  have v2 := ne_of_re_pos (hM.pas r hr.1 hr.2.1).etaV_re
  have v3 := (hM.pas s hs.1 hs.2.1).zetaV_ne
  have v4 := (hM.pas r hr.1 hr.2.1).zetaV_ne
  have h2 : ∀ x : ℝ, (x + Real.pi) * 2 = 2 * x + 2 * Real.pi := fun x => by ring
  simp only [hankelIntegrand, wavenumber, zero_mul, j2codes, exactFactor, List.mem_cons, div4 ho, div8 ho, div8n ho,
    mul_comm θ 2, zero_mul, mul_zero, zero_add, add_zero, sub_zero, zero_sub,
    List.not_mem_nil, or_false, Nat.reduceEqDiff, OfNat.ofNat_ne_one, if_true, if_false, or_true,
    true_or, false_or, mul_one, one_mul, mul_neg, neg_neg, neg_mul, Bool.false_eq_true, and_self,
    and_false, false_and, h2, Real.cos_add_two_pi, Real.sin_add_two_pi, Real.cos_add_pi,
    Real.sin_add_pi, not_true_eq_false, not_false_eq_true,
    Bool.true_eq_false, true_and]

theorem ring64 (hF : ∀ φ, IsPlaneField M (lam * Real.cos φ) (lam * Real.sin φ) zs s
      (unitDipole 4) (F φ))
    (hH : ∀ φ, IsPlaneField (M.homog s) (lam * Real.cos φ) (lam * Real.sin φ) zs 0
      (unitDipole 4) (Fh φ)) :
    RingClaim o M zs zr s r lam rho θ xd F Fh 6 4 31 true true := by
  have hX : (fun φ => xcomp xd s r (F φ) (Fh φ) 6 zr) = trig (0) (I * (lam : ℂ) * Ao' / (2 * M.zetaV r)) (0) (0) (0) := by
    funext φ
    have hsc : (Real.sin φ : ℂ) ^ 2 + (Real.cos φ : ℂ) ^ 2 - 1 = 0 := by
      have := Real.sin_sq_add_cos_sq φ
      exact_mod_cast sub_eq_zero.2 this
    refine ((plane_polar hM hlam.ne' hs hr φ (hF φ) (hH φ) R1 R2).2.2.2.2.2).trans ?_
    simp only [unitDipole, trig, if_true, Nat.reduceEqDiff, OfNat.ofNat_ne_one, OfNat.one_ne_ofNat,
      if_false, Real.cos_two_mul, Real.sin_two_mul]
    push_cast at hsc ⊢
    linear_combination (0) * hsc
  have hP := (gf_mm (ab := 31) hM ho hs hr hsr R1 R2).2.2.1 (by simp)
  unfold RingClaim
  rw [hX, ring_trig (mul_pos hlam hrho).ne']
  have hpi : (Real.pi : ℂ) ≠ 0 := by exact_mod_cast Real.pi_ne_zero
  have hrho' : (rho : ℂ) ≠ 0 := by exact_mod_cast hrho.ne'
  have hlam' : (lam : ℂ) ≠ 0 := by exact_mod_cast hlam.ne'
  have v1 := ne_of_re_pos (hM.pas s hs.1 hs.2.1).etaV_re
  have v2 := ne_of_re_pos (hM.pas r hr.1 hr.2.1).etaV_re
  have v3 := (hM.pas s hs.1 hs.2.1).zetaV_ne
  have v4 := (hM.pas r hr.1 hr.2.1).zetaV_ne
  have h2 : ∀ x : ℝ, (x + Real.pi) * 2 = 2 * x + 2 * Real.pi := fun x => by ring
  simp only [hankelIntegrand, wavenumber, hP, j2codes, exactFactor, List.mem_cons, div4 ho, div8 ho, div8n ho,
    mul_comm θ 2, zero_mul, mul_zero, zero_add, add_zero, sub_zero, zero_sub,
    List.not_mem_nil, or_false, Nat.reduceEqDiff, OfNat.ofNat_ne_one, if_true, if_false, or_true,
    true_or, false_or, mul_one, one_mul, mul_neg, neg_neg, neg_mul, Bool.false_eq_true, and_self,
    and_false, false_and, h2, Real.cos_add_two_pi, Real.sin_add_two_pi, Real.cos_add_pi,
    Real.sin_add_pi, not_true_eq_false, not_false_eq_true,
    Bool.true_eq_false, true_and]
  push_cast
  field_simp
  try ring_nf
  try (simp only [I_sq]; ring)

theorem ring65 (hF : ∀ φ, IsPlaneField M (lam * Real.cos φ) (lam * Real.sin φ) zs s
      (unitDipole 5) (F φ))
    (hH : ∀ φ, IsPlaneField (M.homog s) (lam * Real.cos φ) (lam * Real.sin φ) zs 0
      (unitDipole 5) (Fh φ)) :
    RingClaim o M zs zr s r lam rho θ xd F Fh 6 5 32 true true := by
  have hX : (fun φ => xcomp xd s r (F φ) (Fh φ) 6 zr) = trig (0) (0) (I * (lam : ℂ) * Ao' / (2 * M.zetaV r)) (0) (0) := by
    funext φ
    have hsc : (Real.sin φ : ℂ) ^ 2 + (Real.cos φ : ℂ) ^ 2 - 1 = 0 := by
      have := Real.sin_sq_add_cos_sq φ
      exact_mod_cast sub_eq_zero.2 this
    refine ((plane_polar hM hlam.ne' hs hr φ (hF φ) (hH φ) R1 R2).2.2.2.2.2).trans ?_
    simp only [unitDipole, trig, if_true, Nat.reduceEqDiff, OfNat.ofNat_ne_one, OfNat.one_ne_ofNat,
      if_false, Real.cos_two_mul, Real.sin_two_mul]
    push_cast at hsc ⊢
    linear_combination (0) * hsc
  have hP := (gf_mm (ab := 32) hM ho hs hr hsr R1 R2).2.2.1 (by simp)
  unfold RingClaim
  rw [hX, ring_trig (mul_pos hlam hrho).ne']
  have hpi : (Real.pi : ℂ) ≠ 0 := by exact_mod_cast Real.pi_ne_zero
  have hrho' : (rho : ℂ) ≠ 0 := by exact_mod_cast hrho.ne'
  have hlam' : (lam : ℂ) ≠ 0 := by exact_mod_cast hlam.ne'
  have v1 := ne_of_re_pos (hM.pas s hs.1 hs.2.1).etaV_re
  have v2 := ne_of_re_pos (hM.pas r hr.1 hr.2.1).etaV_re
  have v3 := (hM.pas s hs.1 hs.2.1).zetaV_ne
  have v4 := (hM.pas r hr.1 hr.2.1).zetaV_ne
  have h2 : ∀ x : ℝ, (x + Real.pi) * 2 = 2 * x + 2 * Real.pi := fun x => by ring
  simp only [hankelIntegrand, wavenumber, hP, j2codes, exactFactor, List.mem_cons, div4 ho, div8 ho, div8n ho,
    mul_comm θ 2, zero_mul, mul_zero, zero_add, add_zero, sub_zero, zero_sub,
    List.not_mem_nil, or_false, Nat.reduceEqDiff, OfNat.ofNat_ne_one, if_true, if_false, or_true,
    true_or, false_or, mul_one, one_mul, mul_neg, neg_neg, neg_mul, Bool.false_eq_true, and_self,
    and_false, false_and, h2, Real.cos_add_two_pi, Real.sin_add_two_pi, Real.cos_add_pi,
    Real.sin_add_pi, not_true_eq_false, not_false_eq_true,
    Bool.true_eq_false, true_and]
  push_cast
  field_simp
  try ring_nf
  try (simp only [I_sq]; ring)

theorem ring66 (hF : ∀ φ, IsPlaneField M (lam * Real.cos φ) (lam * Real.sin φ) zs s
      (unitDipole 6) (F φ))
    (hH : ∀ φ, IsPlaneField (M.homog s) (lam * Real.cos φ) (lam * Real.sin φ) zs 0
      (unitDipole 6) (Fh φ)) :
    RingClaim o M zs zr s r lam rho θ xd F Fh 6 6 33 true true := by
  have hX : (fun φ => xcomp xd s r (F φ) (Fh φ) 6 zr) = trig ((lam : ℂ) ^ 2 * Ae' / (2 * M.zetaV s * M.zetaV r)) (0) (0) (0) (0) := by
    funext φ
    have hsc : (Real.sin φ : ℂ) ^ 2 + (Real.cos φ : ℂ) ^ 2 - 1 = 0 := by
      have := Real.sin_sq_add_cos_sq φ
      exact_mod_cast sub_eq_zero.2 this
    refine ((plane_polar hM hlam.ne' hs hr φ (hF φ) (hH φ) R1 R2).2.2.2.2.2).trans ?_
    simp only [unitDipole, trig, if_true, Nat.reduceEqDiff, OfNat.ofNat_ne_one, OfNat.one_ne_ofNat,
      if_false, Real.cos_two_mul, Real.sin_two_mul]
    push_cast at hsc ⊢
    linear_combination (-(lam : ℂ)^2*Ae'/(2*M.zetaV s*M.zetaV r))*I_mul_I
  have hP := (gf_mm (ab := 33) hM ho hs hr hsr R1 R2).2.2.2 (by simp)
  unfold RingClaim
  rw [hX, ring_trig (mul_pos hlam hrho).ne']
  have hpi : (Real.pi : ℂ) ≠ 0 := by exact_mod_cast Real.pi_ne_zero
  have hrho' : (rho : ℂ) ≠ 0 := by exact_mod_cast hrho.ne'
  have hlam' : (lam : ℂ) ≠ 0 := by exact_mod_cast hlam.ne'
  have v1 := ne_of_re_pos (hM.pas s hs.1 hs.2.1).etaV_re
  have v2 := ne_of_re_pos (hM.pas r hr.1 hr.2.1).etaV_re
  have v3 := (hM.pas s hs.1 hs.2.1).zetaV_ne
  have v4 := (hM.pas r hr.1 hr.2.1).zetaV_ne
  have h2 : ∀ x : ℝ, (x + Real.pi) * 2 = 2 * x + 2 * Real.pi := fun x => by ring
  simp only [hankelIntegrand, wavenumber, hP, j2codes, exactFactor, List.mem_cons, div4 ho, div8 ho, div8n ho,
    mul_comm θ 2, zero_mul, mul_zero, zero_add, add_zero, sub_zero, zero_sub,
    List.not_mem_nil, or_false, Nat.reduceEqDiff, OfNat.ofNat_ne_one, if_true, if_false, or_true,
    true_or, false_or, mul_one, one_mul, mul_neg, neg_neg, neg_mul, Bool.false_eq_true, and_self,
    and_false, false_and, h2, Real.cos_add_two_pi, Real.sin_add_two_pi, Real.cos_add_pi,
    Real.sin_add_pi, not_true_eq_false, not_false_eq_true,
    Bool.true_eq_false, true_and]
  push_cast
  field_simp
  try ring_nf
  try (simp only [I_sq]; ring)

end

end Verif.Lemmas
