import Verif.Lemmas.Moves
import Verif.Props.C01_Maxwell
import Mathlib.MeasureTheory.Integral.IntervalIntegral.Periodic

/-!
# C02–C07 — symmetries of the wavenumber-domain kernel

The transformed media (`split`, `shift`, `mirror`, `Uniform`) are defined in
`Verif/Spec/Moves.lean`.
-/

namespace Verif.Props
open Verif.Spec Verif.Kernel Verif.Transform Verif.Utils Verif.Lemmas Complex

/-- **C02.**  Whatever a division by zero, an exponential with a growing argument or an
unassigned variable would give, the kernel never makes use of it: every arithmetic that is
correct where it is defined gives the value of ideal arithmetic. -/
theorem C02_never_undefined {M : Medium} (hM : M.OK) {o : Ops} (ho : Safe o) (lam : ℝ)
    {s r : ℤ} {zs zr : ℝ} (hs : M.InClosed s zs) (hr : M.InClosed r zr) (hsr : zr = zs → r = s)
    (xdirect : Bool) {ab : AbArg} {abc : ℕ} {msrc mrec : Bool}
    (hab : checkAb ab = .ok (abc, msrc, mrec)) :
    wavenumber o (earthOf M) zs zr s r lam abc xdirect msrc mrec =
      wavenumber Ops.exact (earthOf M) zs zr s r lam abc xdirect msrc mrec :=
  wn_same hM hM (fun i j z hi hj => by
      rw [open_unique hM hi (medium_open_closed hj)]; exact ⟨rfl, rfl, rfl, rfl⟩)
    ho safe_exact hs hr hsr hs hr hsr rfl rfl rfl rfl rfl rfl (fun _ => Iff.rfl) hab

/-- The premise is satisfiable by an arithmetic that is really different from the ideal one. -/
example : ∃ o : Ops, Safe o ∧ o.div 1 0 = 17 ∧ o.exp 1 = 23 := by
  classical
  refine ⟨⟨fun a b => if b = 0 then 17 else a / b,
    fun z => if 0 < z.re then 23 else Complex.exp z, ⊤⟩, ⟨fun a b hb => by simp [hb], ?_⟩, ?_, ?_⟩
  · intro z hz; simp [not_lt.2 hz]
  · simp
  · simp

/-- **C03, physics.**  Component `a` at the receiver of a dipole `b` equals, up to the sign of
electromagnetic reciprocity, component `b` at the source position of a dipole `a` at the
receiver position, for the opposite horizontal wavenumber. -/
theorem C03_field_reciprocity {M : Medium} (hM : M.OK) {lam : ℝ} (hlam : lam ≠ 0) {s r : ℤ}
    {zs zr : ℝ} (hs : M.InClosed s zs) (hr : M.InClosed r zr) {a b : ℕ} (ha : 1 ≤ a ∧ a ≤ 6)
    (hb : 1 ≤ b ∧ b ≤ 6) {F G : PlaneField} (φ : ℝ)
    (hF : IsPlaneField M (lam * Real.cos φ) (lam * Real.sin φ) zs s (unitDipole b) F)
    (hG : IsPlaneField M (lam * Real.cos (φ + Real.pi)) (lam * Real.sin (φ + Real.pi)) zr r
      (unitDipole a) G) :
    F.comp a r zr = recipSign a * recipSign b * G.comp b s zs := by
  have hl : ∀ φ : ℝ, (lam * Real.cos φ) ^ 2 + (lam * Real.sin φ) ^ 2 = lam ^ 2 := by
    intro φ; linear_combination lam ^ 2 * Real.sin_sq_add_cos_sq φ
  have e : ∀ (k : ℤ) (z : ℝ), (M.homog k).InClosed 0 z := fun k z =>
    ⟨le_refl _, by simp [Medium.homog], by simp, by simp [Medium.homog]⟩
  obtain ⟨Fh, hFh⟩ := plane_exists (OK.homog hM hs.1 hs.2.1) hlam (hl φ) (e s zs) (unitDipole b)
  obtain ⟨Gh, hGh⟩ := plane_exists (OK.homog hM hr.1 hr.2.1) hlam (hl (φ + Real.pi)) (e r zr)
    (unitDipole a)
  have := plane_recip (xd := false) hM hlam hs hr ha hb φ hF hFh hG hGh
  simpa [xcomp] using this

/-- **C03, code.**  Exchanging source and receiver (depths, layers, directions and azimuth
`θ → θ + π`) leaves the integrand of the Hankel transform unchanged up to the reciprocity sign,
for all 36 codes, with and without `xdirect`.  `exactFactor` is `angle_factor` without its
snapping to zero of values below 1e-9 (`C01_kernel_is_maxwell`). -/
theorem C03_code_reciprocity {M : Medium} (hM : M.OK) {o : Ops} (ho : Safe o)
    {lam rho : ℝ} (hlam : 0 < lam) (hrho : 0 < rho) (θ : ℝ)
    {s r : ℤ} {zs zr : ℝ} (hs : M.InClosed s zs) (hr : M.InClosed r zr) (hsr : zr = zs → r = s)
    (xdirect : Bool) {a b : ℕ} (ha : 1 ≤ a ∧ a ≤ 6) (hb : 1 ≤ b ∧ b ≤ 6)
    {c c' : ℕ} {ms mr ms' mr' : Bool}
    (h : checkAb (.int (10 * a + b)) = .ok (c, ms, mr))
    (h' : checkAb (.int (10 * b + a)) = .ok (c', ms', mr')) :
    hankelIntegrand (wavenumber o (earthOf M) zs zr s r lam c xdirect ms mr) c rho
        (exactFactor θ c ms mr) (besselJ0 (lam * rho)) (besselJ1 (lam * rho)) =
      recipSign a * recipSign b *
      hankelIntegrand (wavenumber o (earthOf M) zr zs r s lam c' xdirect ms' mr') c' rho
        (exactFactor (θ + Real.pi) c' ms' mr') (besselJ0 (lam * rho)) (besselJ1 (lam * rho)) := by
  have hl : ∀ φ : ℝ, (lam * Real.cos φ) ^ 2 + (lam * Real.sin φ) ^ 2 = lam ^ 2 := by
    intro φ; linear_combination lam ^ 2 * Real.sin_sq_add_cos_sq φ
  have e : ∀ (k : ℤ) (z : ℝ), (M.homog k).InClosed 0 z := fun k z =>
    ⟨le_refl _, by simp [Medium.homog], by simp, by simp [Medium.homog]⟩
  choose F hF using fun φ => plane_exists hM hlam.ne' (hl φ) hs (unitDipole b)
  choose Fh hFh using fun φ => plane_exists (OK.homog hM hs.1 hs.2.1) hlam.ne' (hl φ) (e s zs)
    (unitDipole b)
  choose G hG using fun φ => plane_exists hM hlam.ne' (hl φ) hr (unitDipole a)
  choose Gh hGh using fun φ => plane_exists (OK.homog hM hr.1 hr.2.1) hlam.ne' (hl φ) (e r zr)
    (unitDipole a)
  obtain ⟨d1, d2, d3, k1, k2⟩ := ring_all (xd := xdirect) (θ := θ) hM ho hlam hrho hs hr hsr ha hb
    hF hFh
  obtain ⟨d1', d2', d3', k1', k2'⟩ := ring_all (xd := xdirect) (θ := θ + Real.pi) hM ho hlam hrho
    hr hs (fun h => (hsr h.symm).symm) hb ha hG hGh
  rw [h] at k1
  rw [h'] at k1'
  simp only [Except.ok.injEq, Prod.mk.injEq] at k1 k1'
  obtain ⟨rfl, rfl, rfl⟩ := k1
  obtain ⟨rfl, rfl, rfl⟩ := k1'
  unfold RingClaim at k2 k2'
  rw [k2, k2']
  have per : Function.Periodic (fun φ => xcomp xdirect r s (G φ) (Gh φ) b zs *
      Complex.exp (-I * lam * rho * Real.cos (φ - (θ + Real.pi)))) (2 * Real.pi) := by
    intro φ
    have g1 := hG (φ + 2 * Real.pi)
    have g2 := hGh (φ + 2 * Real.pi)
    rw [Real.cos_add_two_pi, Real.sin_add_two_pi] at g1 g2
    obtain ⟨u1, u2, u3, u4, u5⟩ := plane_unique hM hlam.ne' (hl φ) g1 (hG φ)
    obtain ⟨w1, w2, w3, w4, w5⟩ := plane_unique (OK.homog hM hr.1 hr.2.1) hlam.ne' (hl φ) g2 (hGh φ)
    obtain ⟨u6, u7⟩ := u5 s zs hs
    obtain ⟨w6, w7⟩ := w5 0 zs (e r zs)
    have e1 : φ + 2 * Real.pi - (θ + Real.pi) = φ - (θ + Real.pi) + 2 * Real.pi := by ring
    simp only [xcomp, PlaneField.comp, u1, u2, u3, u4, u6, u7, w1, w2, w3, w4, w6, w7, e1,
      Real.cos_add_two_pi]
  have hrec : ∀ φ, xcomp xdirect s r (F φ) (Fh φ) a zr = recipSign a * recipSign b *
      xcomp xdirect r s (G (φ + Real.pi)) (Gh (φ + Real.pi)) b zs := fun φ =>
    plane_recip hM hlam.ne' hs hr ha hb φ (hF φ) (hFh φ) (hG (φ + Real.pi)) (hGh (φ + Real.pi))
  have key : (∫ φ in (0 : ℝ)..(2 * Real.pi), xcomp xdirect s r (F φ) (Fh φ) a zr *
        Complex.exp (-I * lam * rho * Real.cos (φ - θ))) =
      recipSign a * recipSign b * ∫ φ in (0 : ℝ)..(2 * Real.pi),
        xcomp xdirect r s (G φ) (Gh φ) b zs *
        Complex.exp (-I * lam * rho * Real.cos (φ - (θ + Real.pi))) := by
    have i1 := per.intervalIntegral_add_eq 0 Real.pi
    rw [zero_add] at i1
    rw [i1]
    have i2 := intervalIntegral.integral_comp_add_right (a := 0) (b := 2 * Real.pi)
      (fun φ => xcomp xdirect r s (G φ) (Gh φ) b zs *
        Complex.exp (-I * lam * rho * Real.cos (φ - (θ + Real.pi)))) Real.pi
    rw [zero_add, add_comm (2 * Real.pi) Real.pi] at i2
    rw [← i2, ← intervalIntegral.integral_const_mul]
    congr 1
    funext φ
    rw [hrec φ]
    have e1 : φ + Real.pi - (θ + Real.pi) = φ - θ := by ring
    rw [e1]; ring
  unfold ringIntegral
  rw [key]; ring

/-- `Ex` of `Hz`-source against `Hz` of `Ex`-source: sign −1. -/
example : ∃ c c' ms mr ms' mr', checkAb (.int (10 * (1 : ℕ) + (6 : ℕ))) = .ok (c, ms, mr) ∧
    checkAb (.int (10 * (6 : ℕ) + (1 : ℕ))) = .ok (c', ms', mr') ∧
    hankelIntegrand (wavenumber Ops.exact (earthOf exMedium) 990 1000 1 1 (1 / 100) c false ms mr) c
        500 (exactFactor 1 c ms mr) (besselJ0 (1 / 100 * 500)) (besselJ1 (1 / 100 * 500)) =
      -hankelIntegrand (wavenumber Ops.exact (earthOf exMedium) 1000 990 1 1 (1 / 100) c' false ms'
        mr') c' 500 (exactFactor (1 + Real.pi) c' ms' mr') (besselJ0 (1 / 100 * 500))
        (besselJ1 (1 / 100 * 500)) := by
  refine ⟨16, 16, true, false, false, true, rfl, rfl, ?_⟩
  have := C03_code_reciprocity exMedium_ok safe_exact (lam := 1 / 100) (rho := 500) (by norm_num)
    (by norm_num) 1 exMedium_src exMedium_rec (by norm_num) false (a := 1) (b := 6) (by norm_num)
    (by norm_num) (c := 16) (c' := 16) (ms := true) (mr := false) (ms' := false) (mr' := true)
    rfl rfl
  rw [this]
  norm_num [recipSign]

/-- **C04.**  Splitting layer `k` at any depth `d` inside it (or on its boundary) does not change
any kernel, for every source and receiver and every code.  With `xdirect` the only requirement is
that the new interface does not separate source and receiver of one layer (then "same layer"
itself, hence what is subtracted, changes meaning). -/
theorem C04_split {M : Medium} (hM : M.OK) {o : Ops} (ho : Safe o) (lam : ℝ) {k : ℤ} {d : ℝ}
    (hk : M.InClosed k d) {s r : ℤ} {zs zr : ℝ} (hs : (M.split k d).InClosed s zs)
    (hr : (M.split k d).InClosed r zr) (hsr : zr = zs → r = s) {xdirect : Bool}
    (hx : xdirect = true → (Medium.parent k r = Medium.parent k s → r = s))
    {ab : AbArg} {abc : ℕ} {msrc mrec : Bool} (hab : checkAb ab = .ok (abc, msrc, mrec)) :
    wavenumber o (earthOf (M.split k d)) zs zr s r lam abc xdirect msrc mrec =
      wavenumber o (earthOf M) zs zr (Medium.parent k s) (Medium.parent k r) lam abc xdirect msrc
        mrec :=
  wn_same (split_ok hM hk) hM (split_same hM hk) ho ho hs hr hsr (split_closed hk hs)
    (split_closed hk hr) (fun h => by rw [hsr h]) rfl rfl rfl rfl rfl rfl
    (fun h => ⟨fun e => by rw [e], hx h⟩) hab

/-- A new interface at 995, between source (990) and receiver (1000) in the water layer. -/
example (abc : ℕ) (ab : AbArg) (ms mr : Bool) (hab : checkAb ab = .ok (abc, ms, mr)) :
    wavenumber Ops.exact (earthOf (exMedium.split 1 995)) 990 1000 1 2 (1 / 100) abc false ms mr =
      wavenumber Ops.exact (earthOf exMedium) 990 1000 1 1 (1 / 100) abc false ms mr := by
  have hk : exMedium.InClosed 1 995 := by
    refine ⟨by norm_num, by norm_num [exMedium], ?_, ?_⟩ <;> intro _ <;> norm_num [exMedium]
  have hs : (exMedium.split 1 995).InClosed 1 990 := by
    refine ⟨by norm_num, by norm_num [exMedium, Medium.split], ?_, ?_⟩ <;> intro _ <;>
      norm_num [exMedium, Medium.split]
  have hr : (exMedium.split 1 995).InClosed 2 1000 := by
    refine ⟨by norm_num, by norm_num [exMedium, Medium.split], ?_, ?_⟩ <;> intro _ <;>
      norm_num [exMedium, Medium.split]
  have := C04_split exMedium_ok safe_exact (1 / 100) hk hs hr (by norm_num) (xdirect := false)
    (by simp) hab
  simpa [Medium.parent] using this

/-- **C05.**  If all layers are identical, the kernel is that of a single layer. -/
theorem C05_identical_layers {M : Medium} (hM : M.OK) {o : Ops} (ho : Safe o) (lam : ℝ)
    {s r : ℤ} {zs zr : ℝ} (hs : M.InClosed s zs) (hr : M.InClosed r zr) (hsr : zr = zs → r = s)
    (hu : M.Uniform s) {ab : AbArg} {abc : ℕ} {msrc mrec : Bool}
    (hab : checkAb ab = .ok (abc, msrc, mrec)) :
    wavenumber o (earthOf M) zs zr s r lam abc false msrc mrec =
      wavenumber o (earthOf (M.homog s)) zs zr 0 0 lam abc false msrc mrec := by
  have e : ∀ (z : ℝ), (M.homog s).InClosed 0 z := fun z =>
    ⟨le_refl _, by simp [Medium.homog], by simp, by simp [Medium.homog]⟩
  obtain ⟨u1, u2, u3, u4⟩ := hu r hr.1 hr.2.1
  exact wn_same hM (OK.homog hM hs.1 hs.2.1) (uniform_same hu) ho ho hs hr hsr (e zs) (e zr)
    (fun _ => rfl) rfl rfl u2 rfl rfl u4 (by simp) hab

/-- **C05, reflections vanish.**  If all layers are identical and source and receiver are in the
same layer, nothing is left after removing the direct field: all kernels are zero. -/
theorem C05_no_reflections {M : Medium} (hM : M.OK) {o : Ops} (ho : Safe o) (lam : ℝ)
    {s : ℤ} {zs zr : ℝ} (hs : M.InClosed s zs) (hr : M.InClosed s zr)
    (hu : M.Uniform s) {ab : AbArg} {abc : ℕ} {msrc mrec : Bool}
    (hab : checkAb ab = .ok (abc, msrc, mrec)) :
    let W := wavenumber o (earthOf M) zs zr s s lam abc true msrc mrec
    ∀ x, W.1 = some x ∨ W.2.1 = some x ∨ W.2.2 = some x → x = 0 := by
  have s1 : Same (M.tm lam) (homog (M.tm lam) s) := (uniform_same hu).tm lam
  have s2 : Same (M.te lam) (homog (M.te lam) s) := (uniform_same hu).te lam
  have h := wn_zero hM ho hs hr (fun _ => rfl)
    (resp_zero (OK.tm_ord hM lam) (OK.tm_pas hM lam) hs s1 zr)
    (resp_zero (OK.te_ord hM lam) (OK.te_pas hM lam) hs s2 zr) hab
  intro W x hx
  change W = scale3 0 W at h
  rw [h] at hx
  simp only [scale3, Option.map_eq_some_iff, zero_mul] at hx
  rcases hx with ⟨_, _, h⟩ | ⟨_, _, h⟩ | ⟨_, _, h⟩ <;> exact h.symm

/-- Five identical anisotropic layers, source and receiver three layers apart. -/
example (D : ℤ → ℝ) (hD : ∀ i, 1 ≤ i → i + 1 < 5 → D i ≤ D (i + 1)) (lam : ℝ) :
    let M : Medium := ⟨5, D, fun _ => 1, fun _ => 1 / 2, fun _ => I, fun _ => 2 * I⟩
    wavenumber Ops.exact (earthOf M) (D 1) (D 4) 0 3 lam 11 false false false =
      wavenumber Ops.exact (earthOf (M.homog 0)) (D 1) (D 4) 0 0 lam 11 false false false ∨
    D 1 = D 4 := by
  intro M
  by_cases h : D 1 = D 4
  · exact Or.inr h
  · have hM : M.OK := ⟨by norm_num [M], hD, fun i _ _ => by constructor <;> norm_num [M]⟩
    have hs : M.InClosed 0 (D 1) := ⟨by norm_num, by norm_num [M], by simp, by simp [M]⟩
    have hr : M.InClosed 3 (D 4) := by
      refine ⟨by norm_num, by norm_num [M], fun _ => ?_, fun _ => by simp [M]⟩
      exact hD 3 (by norm_num) (by norm_num)
    exact Or.inl (C05_identical_layers hM safe_exact lam hs hr (fun e => absurd e.symm h)
      (fun i _ _ => ⟨rfl, rfl, rfl, rfl⟩) (ab := .int 11) rfl)

/-- **C06.**  Moving medium, source and receiver by `c` changes nothing. -/
theorem C06_depth_shift {M : Medium} (hM : M.OK) {o : Ops} (ho : Safe o) (lam c : ℝ)
    {s r : ℤ} {zs zr : ℝ} (hs : M.InClosed s zs) (hr : M.InClosed r zr) (hsr : zr = zs → r = s)
    (xdirect : Bool) {ab : AbArg} {abc : ℕ} {msrc mrec : Bool}
    (hab : checkAb ab = .ok (abc, msrc, mrec)) :
    wavenumber o (earthOf (M.shift c)) (zs + c) (zr + c) s r lam abc xdirect msrc mrec =
      wavenumber o (earthOf M) zs zr s r lam abc xdirect msrc mrec := by
  obtain ⟨Ao, Bo, Ae, Be, R1⟩ := resp_exists (OK.tm_ord hM lam) (OK.tm_pas hM lam) hs zr r xdirect
  obtain ⟨Ao', Bo', Ae', Be', R2⟩ := resp_exists (OK.te_ord hM lam) (OK.te_pas hM lam) hs zr r
    xdirect
  exact (wn_det hM (shift_ok hM c) ho ho hs hr hsr (shift_closed c hs) (shift_closed c hr)
    (fun h => hsr (by linarith)) R1 R2 (resp_shift (S := M.tm lam) hM.pos c R1)
    (resp_shift (S := M.te lam) hM.pos c R2) rfl rfl rfl rfl hab).symm

/-- Moved down by 37 m. -/
example (abc : ℕ) (ab : AbArg) (ms mr : Bool) (hab : checkAb ab = .ok (abc, ms, mr)) :
    wavenumber Ops.exact (earthOf (exMedium.shift 37)) (990 + 37) (1000 + 37) 1 1 (1 / 100) abc true
      ms mr = wavenumber Ops.exact (earthOf exMedium) 990 1000 1 1 (1 / 100) abc true ms mr :=
  C06_depth_shift exMedium_ok safe_exact _ _ exMedium_src exMedium_rec (by norm_num) true hab

/-- **C07.**  Turning medium, source and receiver upside down multiplies the kernel of component
`a` for a dipole `b` by the product of their reflection signs (`mirrorSign`: vector rule for the
electric, axial-vector rule for the magnetic directions). -/
theorem C07_mirror {M : Medium} (hM : M.OK) {o : Ops} (ho : Safe o) (lam : ℝ)
    {s r : ℤ} {zs zr : ℝ} (hs : M.InClosed s zs) (hr : M.InClosed r zr) (hsr : zr = zs → r = s)
    (xdirect : Bool) {a b : ℕ} (ha : 1 ≤ a ∧ a ≤ 6) (hb : 1 ≤ b ∧ b ≤ 6) {abc : ℕ}
    {msrc mrec : Bool} (hab : checkAb (.int (10 * a + b)) = .ok (abc, msrc, mrec)) :
    wavenumber o (earthOf M.mirror) (-zs) (-zr) (M.n - 1 - s) (M.n - 1 - r) lam abc xdirect msrc
        mrec =
      scale3 (mirrorSign a * mirrorSign b)
        (wavenumber o (earthOf M) zs zr s r lam abc xdirect msrc mrec) := by
  rw [codeSign_eq ha hb hab]
  exact wn_mirror hM ho ho hs hr hsr hab

/-- `Ez` of an x-directed dipole changes sign. -/
example : wavenumber Ops.exact (earthOf exMedium.mirror) (-990) (-1000) 1 1 (1 / 100) 31 false
      false false =
    scale3 (-1) (wavenumber Ops.exact (earthOf exMedium) 990 1000 1 1 (1 / 100) 31 false false
      false) := by
  have := C07_mirror exMedium_ok safe_exact (1 / 100) exMedium_src exMedium_rec (by norm_num) false
    (a := 3) (b := 1) (by norm_num) (by norm_num) (abc := 31) (msrc := false) (mrec := false) rfl
  norm_num [exMedium, mirrorSign] at this ⊢
  exact this

end Verif.Props
