import Verif.Lemmas.Angle

/-!
# C01, C37 (zero codes) — the kernel returns the physical field

Specification: `Verif/Spec/Medium.lean`, `Verif/Spec/Maxwell3D.lean` (Maxwell's equations for a
point dipole in a layered VTI medium, per horizontal wavenumber; nothing of it refers to the
code).  Model: `Verif/Model/Kernel.lean`, `Verif/Model/CheckAb.lean`, `Verif/Model/Hankel.lean`.
-/

namespace Verif.Props
open Verif.Spec Verif.Kernel Verif.Transform Verif.Utils Verif.Lemmas Complex

/-- The specification determines the field uniquely: for every passive layered medium, every
dipole and every non-zero horizontal wavenumber there is a field, and only one. -/
theorem C01_field_exists_unique {M : Medium} (hM : M.OK) {kx ky : ℝ} (hk : kx ≠ 0 ∨ ky ≠ 0)
    {s : ℤ} {zs : ℝ} (hs : M.InClosed s zs) (d : Dipole) :
    (∃ F, IsPlaneField M kx ky zs s d F) ∧
    ∀ F F', IsPlaneField M kx ky zs s d F → IsPlaneField M kx ky zs s d F' →
      ∀ a i z, M.InClosed i z → F.comp a i z = F'.comp a i z := by
  have hpos : 0 < kx ^ 2 + ky ^ 2 := by
    rcases hk with h | h
    · have : 0 < kx ^ 2 := by positivity
      nlinarith [sq_nonneg ky]
    · have : 0 < ky ^ 2 := by positivity
      nlinarith [sq_nonneg kx]
  have hl : kx ^ 2 + ky ^ 2 = (Real.sqrt (kx ^ 2 + ky ^ 2)) ^ 2 := (Real.sq_sqrt hpos.le).symm
  have hne : Real.sqrt (kx ^ 2 + ky ^ 2) ≠ 0 := (Real.sqrt_pos.2 hpos).ne'
  refine ⟨plane_exists hM hne hl hs d, fun F F' hF hF' a i z hz => ?_⟩
  obtain ⟨h1, h2, h3, h4, h5⟩ := plane_unique hM hne hl hF hF'
  obtain ⟨h6, h7⟩ := h5 i z hz
  simp only [PlaneField.comp, h1, h2, h3, h4, h6, h7]

/-- **C01.**  For every passive layered medium, all source and receiver depths (on interfaces,
in the same layer, above, below), every wavenumber `lam > 0`, offset `rho > 0` and azimuth `θ`,
and for each of the 36 receiver/source component pairs `(a, b)`: decoding the code `ab`,
computing the wavenumber-domain kernels and combining them the way every Hankel transform of
the code does gives exactly the contribution of all plane waves of wavenumber `lam` to
component `a` of the field of a unit dipole `b` — the total field, or the total field minus the
direct field of the source layer if `xdirect` is set and both are in the same layer.  `f` is the
exact trigonometric angle factor: the code's `angle_factor` equals `f` except that it may be
snapped to zero when `|f| ≤ 1e-9`.  `o` is any arithmetic that is correct where it is defined. -/
theorem C01_kernel_is_maxwell {M : Medium} (hM : M.OK) {o : Ops} (ho : Safe o)
    {lam rho : ℝ} (hlam : 0 < lam) (hrho : 0 < rho) (θ : ℝ)
    {s r : ℤ} {zs zr : ℝ} (hs : M.InClosed s zs) (hr : M.InClosed r zr) (hsr : zr = zs → r = s)
    (xdirect : Bool) {a b : ℕ} (ha : 1 ≤ a ∧ a ≤ 6) (hb : 1 ≤ b ∧ b ≤ 6)
    {F Fh : ℝ → PlaneField}
    (hF : ∀ φ, IsPlaneField M (lam * Real.cos φ) (lam * Real.sin φ) zs s (unitDipole b) (F φ))
    (hH : ∀ φ, IsPlaneField (M.homog s) (lam * Real.cos φ) (lam * Real.sin φ) zs 0
      (unitDipole b) (Fh φ)) :
    ∃ abc msrc mrec f,
      checkAb (.int (10 * a + b)) = .ok (abc, msrc, mrec) ∧
      |angleFactor θ abc msrc mrec - f| ≤ 1e-9 ∧
      (angleFactor θ abc msrc mrec = f ∨ angleFactor θ abc msrc mrec = 0) ∧
      hankelIntegrand (wavenumber o (earthOf M) zs zr s r lam abc xdirect msrc mrec) abc rho f
          (besselJ0 (lam * rho)) (besselJ1 (lam * rho)) =
        ringIntegral (fun φ => (F φ).comp a r zr -
          if xdirect = true ∧ r = s then (Fh φ).comp a 0 zr else 0) lam rho θ := by
  obtain ⟨abc, msrc, mrec, h1, h2⟩ := ring_all (xd := xdirect) (θ := θ) hM ho hlam hrho hs hr hsr
    ha hb hF hH
  exact ⟨abc, msrc, mrec, exactFactor θ abc msrc mrec, h1, (angleFactor_close _ _ _ _).1,
    (angleFactor_close _ _ _ _).2, h2⟩

/-- **C37, zero codes.**  The component `Ez` of a vertical magnetic dipole and the component
`Hz` of a vertical electric dipole are physically zero, which is what `fem` returns for the
calculation code 36 without calling the kernel. -/
theorem C37_zero_codes {M : Medium} (hM : M.OK) {lam : ℝ} (hlam : 0 < lam) (φ : ℝ)
    {s r : ℤ} {zs zr : ℝ} (hs : M.InClosed s zs) (hr : M.InClosed r zr) {F Fh : PlaneField}
    {a b : ℕ} (hab : (a = 3 ∧ b = 6) ∨ (a = 6 ∧ b = 3))
    (hF : IsPlaneField M (lam * Real.cos φ) (lam * Real.sin φ) zs s (unitDipole b) F)
    (hH : IsPlaneField (M.homog s) (lam * Real.cos φ) (lam * Real.sin φ) zs 0 (unitDipole b) Fh) :
    F.comp a r zr = 0 ∧
    ∃ msrc mrec, checkAb (.int (10 * a + b)) = .ok (36, msrc, mrec) := by
  obtain ⟨Ao, Bo, Ae, Be, R1⟩ := resp_exists (OK.tm_ord hM lam) (OK.tm_pas hM lam) hs zr r false
  obtain ⟨Ao', Bo', Ae', Be', R2⟩ := resp_exists (OK.te_ord hM lam) (OK.te_pas hM lam) hs zr r
    false
  have h := plane_polar hM hlam.ne' hs hr φ hF hH R1 R2
  rcases hab with ⟨rfl, rfl⟩ | ⟨rfl, rfl⟩
  · refine ⟨?_, true, false, rfl⟩
    have := h.2.2.1
    simpa [xcomp, unitDipole] using this
  · refine ⟨?_, false, true, rfl⟩
    have := h.2.2.2.2.2
    simpa [xcomp, unitDipole] using this

/-! ## Non-vacuity -/

/-- Three layers (resistive, conductive, anisotropic), interfaces at 0 and 1000. -/
noncomputable def exMedium : Medium where
  n := 3
  D := fun i => if i = 1 then 0 else 1000
  etaH := fun i => if i = 0 then 1e-8 + I * 1e-9 else if i = 1 then 3 else 1
  etaV := fun i => if i = 2 then 1 / 2 else if i = 0 then 1e-8 else 3
  zetaH := fun _ => I * 8e-6
  zetaV := fun _ => I * 8e-6

theorem exMedium_ok : exMedium.OK where
  pos := by norm_num [exMedium]
  mono i h1 h2 := by
    have : i = 1 := by simp only [exMedium] at h2; omega
    subst this; norm_num [exMedium]
  pas i h0 h1 := by
    have : i = 0 ∨ i = 1 ∨ i = 2 := by simp only [exMedium] at h1; omega
    rcases this with rfl | rfl | rfl <;> constructor <;> norm_num [exMedium]

theorem exMedium_src : exMedium.InClosed 1 990 := by
  refine ⟨by norm_num, by norm_num [exMedium], ?_, ?_⟩ <;> intro _ <;> norm_num [exMedium]

theorem exMedium_rec : exMedium.InClosed 1 1000 := by
  refine ⟨by norm_num, by norm_num [exMedium], ?_, ?_⟩ <;> intro _ <;> norm_num [exMedium]

/-- All hypotheses of `C01_kernel_is_maxwell` are met: marine CSEM-like model, source in the
water, receiver on the sea bottom, for every component pair, with and without `xdirect`. -/
example (a b : ℕ) (ha : 1 ≤ a ∧ a ≤ 6) (hb : 1 ≤ b ∧ b ≤ 6) (xd : Bool) (θ : ℝ) :
    ∃ F Fh : ℝ → PlaneField, ∃ abc msrc mrec f,
      checkAb (.int (10 * a + b)) = .ok (abc, msrc, mrec) ∧
      |angleFactor θ abc msrc mrec - f| ≤ 1e-9 ∧
      hankelIntegrand (wavenumber Ops.exact (earthOf exMedium) 990 1000 1 1 (1 / 100) abc xd msrc
          mrec) abc 500 f (besselJ0 (1 / 100 * 500)) (besselJ1 (1 / 100 * 500)) =
        ringIntegral (fun φ => (F φ).comp a 1 1000 -
          if xd = true ∧ (1 : ℤ) = 1 then (Fh φ).comp a 0 1000 else 0) (1 / 100) 500 θ := by
  have hl : ∀ φ, ((1 / 100 : ℝ) * Real.cos φ) ^ 2 + (1 / 100 * Real.sin φ) ^ 2 = (1 / 100) ^ 2 := by
    intro φ; linear_combination (1 / 100 : ℝ) ^ 2 * Real.sin_sq_add_cos_sq φ
  have e1 : ∀ φ, ∃ F, IsPlaneField exMedium (1 / 100 * Real.cos φ) (1 / 100 * Real.sin φ) 990 1
      (unitDipole b) F := fun φ =>
    plane_exists exMedium_ok (by norm_num) (hl φ) exMedium_src _
  have e2 : ∀ φ, ∃ F, IsPlaneField (exMedium.homog 1) (1 / 100 * Real.cos φ)
      (1 / 100 * Real.sin φ) 990 0 (unitDipole b) F := fun φ =>
    plane_exists (OK.homog exMedium_ok (by norm_num) (by norm_num [exMedium])) (by norm_num) (hl φ)
      ⟨le_refl _, by simp [Medium.homog], by simp, by simp [Medium.homog]⟩ _
  choose F hF using e1
  choose Fh hH using e2
  obtain ⟨abc, msrc, mrec, f, h1, h2, -, h4⟩ := C01_kernel_is_maxwell exMedium_ok safe_exact
    (lam := 1 / 100) (rho := 500) (by norm_num) (by norm_num) θ exMedium_src exMedium_rec
    (by norm_num) xd ha hb hF hH
  exact ⟨F, Fh, abc, msrc, mrec, f, h1, h2, h4⟩

end Verif.Props
