import Verif.Props.C01_Maxwell
import Verif.Model.Fem

/-!
# C37 — magnetic sources and receivers are the dual problem

The physical statement (`C37_dual_field`) speaks only of Maxwell's equations; the statement about
the code (`C37_dual_kernel`) only of the kernel; `C37_dual` joins them.
-/

namespace Verif.Props
open Verif.Spec Verif.Kernel Verif.Transform Verif.Utils Verif.Lemmas Complex

/-- Electric and magnetic properties exchanged and negated. -/
def dualMedium (M : Medium) : Medium where
  n := M.n
  D := M.D
  etaH i := -M.zetaH i
  etaV i := -M.zetaV i
  zetaH i := -M.etaH i
  zetaV i := -M.etaV i

/-- Electric and magnetic field exchanged. -/
def dualField (F : PlaneField) : PlaneField := ⟨F.Hx, F.Hy, F.Hz, F.Ex, F.Ey, F.Ez⟩

/-- Electric and magnetic moment exchanged and negated. -/
def dualDipole (d : Dipole) : Dipole := ⟨-d.Kx, -d.Ky, -d.Kz, -d.Jx, -d.Jy, -d.Jz⟩

theorem dualMedium_dual (M : Medium) : dualMedium (dualMedium M) = M := by
  cases M; simp [dualMedium]

theorem dualDipole_dual (d : Dipole) : dualDipole (dualDipole d) = d := by
  cases d; simp [dualDipole]

theorem isPlaneField_dual {M : Medium} {kx ky zs : ℝ} {s : ℤ} {d : Dipole} {F : PlaneField}
    (h : IsPlaneField M kx ky zs s d F) :
    IsPlaneField (dualMedium M) kx ky zs s (dualDipole d) (dualField F) where
  faradayY i z hi hz := by
    refine (h.ampereY i z hi hz).congr_deriv ?_
    simp only [dualMedium, dualField]; ring
  faradayX i z hi hz := by
    refine (h.ampereX i z hi hz).congr_deriv ?_
    simp only [dualMedium, dualField]; ring
  faradayZ i z hi := by
    have := h.ampereZ i z hi
    simp only [dualMedium, dualField]
    rw [this]; ring
  ampereY i z hi hz := by
    refine (h.faradayY i z hi hz).congr_deriv ?_
    simp only [dualMedium, dualField]; ring
  ampereX i z hi hz := by
    refine (h.faradayX i z hi hz).congr_deriv ?_
    simp only [dualMedium, dualField]; ring
  ampereZ i z hi := by
    have := h.faradayZ i z hi
    simp only [dualMedium, dualField]
    rw [this]; ring
  cont z hi hz := by
    obtain ⟨h1, h2, h3, h4⟩ := h.cont z hi hz
    exact ⟨h3, h4, h1, h2⟩
  jumpEx := by
    have e : -(dualDipole d).Ky + I * kx * (dualDipole d).Jz / (dualMedium M).etaV s =
        d.Jy + I * kx * d.Kz / M.zetaV s := by
      simp only [dualDipole, dualMedium, neg_neg, mul_neg, neg_div_neg_eq]
    rw [e]; exact h.jumpHx
  jumpEy := by
    have e : (dualDipole d).Kx + I * ky * (dualDipole d).Jz / (dualMedium M).etaV s =
        -d.Jx + I * ky * d.Kz / M.zetaV s := by
      simp only [dualDipole, dualMedium, mul_neg, neg_div_neg_eq]
    rw [e]; exact h.jumpHy
  jumpHx := by
    have e : (dualDipole d).Jy + I * kx * (dualDipole d).Kz / (dualMedium M).zetaV s =
        -d.Ky + I * kx * d.Jz / M.etaV s := by
      simp only [dualDipole, dualMedium, mul_neg, neg_div_neg_eq]
    rw [e]; exact h.jumpEx
  jumpHy := by
    have e : -(dualDipole d).Jx + I * ky * (dualDipole d).Kz / (dualMedium M).zetaV s =
        d.Kx + I * ky * d.Jz / M.etaV s := by
      simp only [dualDipole, dualMedium, neg_neg, mul_neg, neg_div_neg_eq]
    rw [e]; exact h.jumpEy
  decay := ⟨h.decay.2.2.1, h.decay.2.2.2, h.decay.1, h.decay.2.1⟩

/-- **C37, physics.**  A field solves Maxwell's equations for a dipole in a medium iff the field
with E and H exchanged solves them for the dipole with moments exchanged and negated in the medium
with `eta` and `zeta` exchanged and negated. -/
theorem C37_dual_field (M : Medium) (kx ky zs : ℝ) (s : ℤ) (d : Dipole) (F : PlaneField) :
    IsPlaneField M kx ky zs s d F ↔
      IsPlaneField (dualMedium M) kx ky zs s (dualDipole d) (dualField F) := by
  refine ⟨isPlaneField_dual, fun h => ?_⟩
  have := isPlaneField_dual h
  rwa [dualMedium_dual, dualDipole_dual] at this

/-- The earth with `eta` and `zeta` exchanged and negated, as the code stores it. -/
def dualEarth (E : Earth) : Earth where
  nlayer := E.nlayer
  depth := E.depth
  etaH i := -E.zetaH i
  etaV i := -E.zetaV i
  zetaH i := -E.etaH i
  zetaV i := -E.etaV i

/-- All three kernels negated. -/
def negKernels (k : Option ℂ × Option ℂ × Option ℂ) : Option ℂ × Option ℂ × Option ℂ :=
  (k.1.map Neg.neg, k.2.1.map Neg.neg, k.2.2.map Neg.neg)

/-- **C37, code.**  For every earth (no assumption on it), all depths, layers, wavenumbers and
calculation codes: the kernels of a magnetic source at a magnetic receiver are the negative of the
kernels of the electric source at the electric receiver in the earth with `eta` and `zeta` exchanged
and negated. -/
theorem C37_dual_kernel {o : Ops} (ho : Safe o) (E : Earth) (zs zr : ℝ) (s r : ℤ) (lam : ℝ)
    (ab : ℕ) (xd : Bool) :
    wavenumber o E zs zr s r lam ab xd true true =
      negKernels (wavenumber o (dualEarth E) zs zr s r lam ab xd false false) := by
  have hg : greenfct o E zs zr s r lam ab xd true true =
      greenfct o (dualEarth E) zs zr s r lam ab xd false false := rfl
  unfold wavenumber
  simp only [hg]
  generalize greenfct o (dualEarth E) zs zr s r lam ab xd false false = P
  have hpi : (Real.pi : ℂ) ≠ 0 := by exact_mod_cast Real.pi_ne_zero
  have hd : ∀ x : ℂ, x ≠ 0 → o.div lam x = lam / x := fun x hx => ho.div _ _ hx
  have h8 : (8 : ℂ) * Real.pi ≠ 0 := mul_ne_zero (by norm_num) hpi
  have e1 : o.div lam (-((8 : ℂ) * Real.pi)) = -(lam / (8 * Real.pi)) := by
    rw [hd _ (neg_ne_zero.2 h8), div_neg]
  have e2 : o.div lam ((8 : ℂ) * Real.pi) = lam / (8 * Real.pi) := hd _ h8
  simp only [negKernels, if_true, Bool.false_eq_true, if_false]
  split_ifs <;> refine Prod.ext ?_ (Prod.ext ?_ ?_) <;>
    simp only [Option.map_some, Option.map_none, Option.some.injEq, mul_neg, mul_one, neg_neg,
      neg_mul, one_mul, neg_zero, e1, e2] <;> ring

/-- The negative of a field is the field of the negative dipole. -/
theorem isPlaneField_neg {M : Medium} {kx ky zs : ℝ} {s : ℤ} {d : Dipole} {F : PlaneField}
    (h : IsPlaneField M kx ky zs s d F) :
    IsPlaneField M kx ky zs s ⟨-d.Jx, -d.Jy, -d.Jz, -d.Kx, -d.Ky, -d.Kz⟩
      ⟨-F.Ex, -F.Ey, -F.Ez, -F.Hx, -F.Hy, -F.Hz⟩ := by
  have J : ∀ {A : ℝ → ℂ} {z : ℝ} {j j' : ℂ}, JumpAt A z j → j' = -j → JumpAt (-A) z j' := by
    rintro A z j j' ⟨h1, h2⟩ rfl
    refine ⟨?_, ?_⟩
    · have e : (-A) z - -j / 2 = -(A z - j / 2) := by simp only [Pi.neg_apply]; ring
      rw [e]; exact h1.neg
    · have e : (-A) z + -j / 2 = -(A z + j / 2) := by simp only [Pi.neg_apply]; ring
      rw [e]; exact h2.neg
  have D : ∀ {A : ℝ → ℂ}, Decays A → Decays (-A) := fun {A} ⟨h1, h2⟩ =>
    ⟨(neg_zero (G := ℂ)) ▸ h1.neg, (neg_zero (G := ℂ)) ▸ h2.neg⟩
  exact
    { faradayY := fun i z hi hz => (h.faradayY i z hi hz).neg.congr_deriv
        (by simp only [Pi.neg_apply]; ring)
      faradayX := fun i z hi hz => (h.faradayX i z hi hz).neg.congr_deriv
        (by simp only [Pi.neg_apply]; ring)
      faradayZ := fun i z hi => by
        simp only [Pi.neg_apply]; linear_combination -(h.faradayZ i z hi)
      ampereY := fun i z hi hz => (h.ampereY i z hi hz).neg.congr_deriv
        (by simp only [Pi.neg_apply]; ring)
      ampereX := fun i z hi hz => (h.ampereX i z hi hz).neg.congr_deriv
        (by simp only [Pi.neg_apply]; ring)
      ampereZ := fun i z hi => by
        simp only [Pi.neg_apply]; linear_combination -(h.ampereZ i z hi)
      cont := fun z hi hz =>
        ⟨(h.cont z hi hz).1.neg, (h.cont z hi hz).2.1.neg, (h.cont z hi hz).2.2.1.neg,
          (h.cont z hi hz).2.2.2.neg⟩
      jumpEx := J h.jumpEx (by ring)
      jumpEy := J h.jumpEy (by ring)
      jumpHx := J h.jumpHx (by ring)
      jumpHy := J h.jumpHy (by ring)
      decay := ⟨D h.decay.1, D h.decay.2.1, D h.decay.2.2.1, D h.decay.2.2.2⟩ }

/-- **C37, physical field of the dual problem.**  For every passive layered medium, all positions
and components: `a + 3`, `b + 3` are a magnetic receiver and a magnetic source.  Let `G` be the
field of the *electric* unit dipole `b` in the dual medium.  Then the field in the medium itself of
the magnetic dipole is minus `G` with E and H exchanged, and what the code computes for the magnetic
pair is minus the *electric* component `a` of `G`. -/
theorem C37_dual {M : Medium} (hM : M.OK) {o : Ops} (ho : Safe o)
    {lam rho : ℝ} (hlam : 0 < lam) (hrho : 0 < rho) (θ : ℝ)
    {s r : ℤ} {zs zr : ℝ} (hs : M.InClosed s zs) (hr : M.InClosed r zr) (hsr : zr = zs → r = s)
    {a b : ℕ} (ha : 1 ≤ a ∧ a ≤ 3) (hb : 1 ≤ b ∧ b ≤ 3) {G : ℝ → PlaneField}
    (hG : ∀ φ, IsPlaneField (dualMedium M) (lam * Real.cos φ) (lam * Real.sin φ) zs s
      (unitDipole b) (G φ)) :
    checkAb (.int (10 * (a + 3) + (b + 3))) = .ok (10 * a + b, true, true) ∧
    (∀ φ F, IsPlaneField M (lam * Real.cos φ) (lam * Real.sin φ) zs s (unitDipole (b + 3)) F →
      ∀ i z, M.InClosed i z → F.comp (a + 3) i z = -(G φ).comp a i z) ∧
    ∃ f, |angleFactor θ (10 * a + b) true true - f| ≤ 1e-9 ∧
      hankelIntegrand (wavenumber o (earthOf M) zs zr s r lam (10 * a + b) false true true)
          (10 * a + b) rho f (besselJ0 (lam * rho)) (besselJ1 (lam * rho)) =
        -ringIntegral (fun φ => (G φ).comp a r zr) lam rho θ := by
  have hc : checkAb (.int (10 * ((a + 3 : ℕ) : ℤ) + ((b + 3 : ℕ) : ℤ))) =
      .ok (10 * a + b, true, true) := by
    obtain ⟨a1, a2⟩ := ha
    obtain ⟨b1, b2⟩ := hb
    interval_cases a <;> interval_cases b <;> rfl
  have hN : ∀ φ, IsPlaneField M (lam * Real.cos φ) (lam * Real.sin φ) zs s (unitDipole (b + 3))
      ⟨-(G φ).Hx, -(G φ).Hy, -(G φ).Hz, -(G φ).Ex, -(G φ).Ey, -(G φ).Ez⟩ := by
    intro φ
    have h := isPlaneField_neg (isPlaneField_dual (hG φ))
    rw [dualMedium_dual] at h
    have e : (⟨-(dualDipole (unitDipole b)).Jx, -(dualDipole (unitDipole b)).Jy,
        -(dualDipole (unitDipole b)).Jz, -(dualDipole (unitDipole b)).Kx,
        -(dualDipole (unitDipole b)).Ky, -(dualDipole (unitDipole b)).Kz⟩ : Dipole) =
        unitDipole (b + 3) := by
      obtain ⟨b1, b2⟩ := hb
      interval_cases b <;> simp [dualDipole, unitDipole]
    rw [e] at h
    exact h
  have hcomp : ∀ φ i z, (⟨-(G φ).Hx, -(G φ).Hy, -(G φ).Hz, -(G φ).Ex, -(G φ).Ey, -(G φ).Ez⟩ :
      PlaneField).comp (a + 3) i z = -(G φ).comp a i z := by
    intro φ i z
    obtain ⟨a1, a2⟩ := ha
    interval_cases a <;> simp [PlaneField.comp]
  refine ⟨by exact_mod_cast hc, ?_, ?_⟩
  · intro φ F hF i z hz
    have hk : lam * Real.cos φ ≠ 0 ∨ lam * Real.sin φ ≠ 0 := by
      by_contra hcon
      push Not at hcon
      have := Real.sin_sq_add_cos_sq φ
      rcases hcon with ⟨h1, h2⟩
      rw [mul_eq_zero] at h1 h2
      have h1 := h1.resolve_left hlam.ne'
      have h2 := h2.resolve_left hlam.ne'
      rw [h1, h2] at this
      norm_num at this
    rw [(C01_field_exists_unique hM hk hs (unitDipole (b + 3))).2 F _ hF (hN φ) (a + 3) i z hz,
      hcomp]
  · have hl : ∀ φ, (lam * Real.cos φ) ^ 2 + (lam * Real.sin φ) ^ 2 = lam ^ 2 := by
      intro φ; linear_combination lam ^ 2 * Real.sin_sq_add_cos_sq φ
    have e2 : ∀ φ, ∃ F, IsPlaneField (M.homog s) (lam * Real.cos φ)
        (lam * Real.sin φ) zs 0 (unitDipole (b + 3)) F := fun φ =>
      plane_exists (OK.homog hM hs.1 hs.2.1) hlam.ne' (hl φ)
        ⟨le_refl _, by simp [Medium.homog], by simp, by simp [Medium.homog]⟩ _
    choose Fh hH using e2
    obtain ⟨abc, msrc, mrec, f, h1, h2, -, h4⟩ := C01_kernel_is_maxwell hM ho hlam hrho θ hs hr hsr
      false (a := a + 3) (b := b + 3) (by omega) (by omega) hN hH
    rw [hc] at h1
    obtain ⟨rfl, rfl, rfl⟩ : 10 * a + b = abc ∧ true = msrc ∧ true = mrec := by
      simpa using h1
    refine ⟨f, h2, ?_⟩
    rw [h4]
    simp only [hcomp, Bool.false_eq_true, false_and, if_false, sub_zero, ringIntegral, neg_mul]
    rw [intervalIntegral.integral_neg, mul_neg]

/-- **C37, zero codes in the driver.**  For the calculation code 36 (both 36 and 63 are decoded to
it) `fem` returns zeros without any call of a Hankel transform or of the full-space solution,
whatever they would return. -/
theorem C37_fem_zero {α : Type} (hank : Model.Calc α) (full : ℕ → ℕ → ℂ) (offs : List (ℝ × ℝ))
    (rows : List α) (same : Bool) (xd : Option Bool) (fs msrc mrec lf lo conv : Bool) :
    (∀ i j, (Model.fem hank full 36 offs rows same xd fs msrc mrec lf lo conv).val i j = 0) ∧
    (Model.fem hank full 36 offs rows same xd fs msrc mrec lf lo conv).kcount = 0 ∧
    checkAb (.int 36) = .ok (36, true, false) ∧ checkAb (.int 63) = .ok (36, false, true) :=
  ⟨fun _ _ => rfl, rfl, rfl, rfl⟩

/-- Non-vacuity: the dual field exists for the three-layer medium of C01 and every electric
dipole, and none of its layers has zero properties. -/
example (b : ℕ) (φ : ℝ) :
    ∃ G, IsPlaneField (dualMedium exMedium) (1 / 100 * Real.cos φ) (1 / 100 * Real.sin φ) 990 1
      (unitDipole b) G := by
  have hl : ((1 / 100 : ℝ) * Real.cos φ) ^ 2 + (1 / 100 * Real.sin φ) ^ 2 = (1 / 100) ^ 2 := by
    linear_combination (1 / 100 : ℝ) ^ 2 * Real.sin_sq_add_cos_sq φ
  obtain ⟨F, hF⟩ := plane_exists exMedium_ok (by norm_num) hl exMedium_src
    (dualDipole (unitDipole b))
  refine ⟨dualField F, ?_⟩
  have := (C37_dual_field _ _ _ _ _ _ _).1 hF
  rwa [dualDipole_dual] at this

end Verif.Props
