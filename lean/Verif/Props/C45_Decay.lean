import Verif.Lemmas.StackDecay
import Verif.Props.C36_Xdirect

/-!
# C45: the Hankel integral of the kernel exists

For source and receiver at different depths the integrand decays exponentially with wavenumber.
-/

namespace Verif.Props
open Verif.Spec Verif.Py Verif.Py.W Verif.Utils Verif.Model Verif.Kernel Verif.Transform Verif.Fullspace
  Verif.Lemmas Verif.Lemmas.Full MeasureTheory Set Filter Topology

/-! ## Limits of the vertical wavenumbers -/

theorem inv_lp : Nice (fun l : ℝ => 1 / ((l : ℂ) + 1)) 0 := by
  refine ⟨continuousOn_const.div (by fun_prop) fun l hl => lp_ne hl, ?_⟩
  have h : Tendsto (fun l : ℝ => (l + 1)⁻¹) atTop (𝓝 0) :=
    tendsto_inv_atTop_zero.comp (tendsto_atTop_add_const_right _ 1 tendsto_id)
  have := (Complex.continuous_ofReal.tendsto _).comp h
  rw [Complex.ofReal_zero] at this
  refine this.congr fun l => ?_
  simp

theorem frac_lp : Nice (fun l : ℝ => (l : ℂ) / ((l : ℂ) + 1)) 1 := by
  have := (Nice.const 1).sub inv_lp
  rw [sub_zero] at this
  refine this.congr fun l hl => ?_
  have := lp_ne hl
  field_simp
  ring

theorem slit_mem {z : ℂ} (h : 0 < ‖z‖ + z.re) : z ∈ Complex.slitPlane := by
  rw [Complex.mem_slitPlane_iff]
  by_contra hc
  push Not at hc
  have : ‖z‖ = |z.re| := by
    have e : z = (z.re : ℂ) := Complex.ext rfl (by simpa using hc.2)
    conv_lhs => rw [e, Complex.norm_real, Real.norm_eq_abs]
  rw [this, abs_of_nonpos hc.1] at h
  linarith

theorem csqrt_contAt {z : ℂ} (h : z ∈ Complex.slitPlane) : ContinuousAt csqrt z :=
  continuousAt_cpow_const h

theorem sq_unique {a b : ℂ} (ha : 0 < a.re) (hb : 0 < b.re) (h : a * a = b * b) : a = b := by
  have : (a - b) * (a + b) = 0 := by linear_combination h
  rcases mul_eq_zero.1 this with h | h
  · exact sub_eq_zero.1 h
  · have := congrArg Complex.re h
    rw [Complex.add_re, Complex.zero_re] at this; linarith

theorem gam_nice {o : Ops} (ho : Safe o) {κ e v w : ℂ} (hκ : κ * κ = 1) (hv : v ≠ 0)
    (hp : ∀ l : ℝ, Stack.PassiveAt e ((l : ℂ) ^ 2 / v + w)) (hev : 0 < ‖e / v‖ + (e / v).re) :
    Nice (fun l => gam o (κ * e) (κ * v) (κ * w) l / ((l : ℂ) + 1)) (csqrt (e / v)) := by
  have hk0 : κ ≠ 0 := fun h => by rw [h] at hκ; simp at hκ
  set W : ℝ → ℂ := fun l => e / v * ((l : ℂ) / (l + 1) * ((l : ℂ) / (l + 1))) +
    e * w * (1 / ((l : ℂ) + 1) * (1 / ((l : ℂ) + 1))) with hW
  have nW : Nice W (e / v) := by
    have := ((Nice.const (e / v)).mul (frac_lp.mul frac_lp)).add ((Nice.const (e * w)).mul (inv_lp.mul inv_lp))
    rw [mul_one, mul_one, mul_zero, mul_zero, add_zero] at this
    exact this
  have eW : ∀ l : ℝ, 0 ≤ l → e * ((l : ℂ) ^ 2 / v + w) = W l * (((l : ℂ) + 1) * (l + 1)) := fun l hl => by
    have := lp_ne hl
    rw [hW]; field_simp
  have sW : ∀ l : ℝ, 0 ≤ l → 0 < ‖W l‖ + (W l).re := fun l hl => by
    have h := passive_slit (hp l)
    rw [eW l hl] at h
    have e2 : ((l : ℂ) + 1) * (l + 1) = (((l + 1) * (l + 1) : ℝ) : ℂ) := by push_cast; ring
    have hpos : 0 < (l + 1) * (l + 1) := by positivity
    rw [e2, mul_comm, norm_mul, Complex.norm_real, Real.norm_eq_abs, abs_of_pos hpos, Complex.re_ofReal_mul,
      ← mul_add] at h
    exact (pos_iff_pos_of_mul_pos h).1 hpos
  have key : Nice (fun l => csqrt (W l)) (csqrt (e / v)) :=
    ⟨fun l hl => (csqrt_contAt (slit_mem (sW l hl))).comp_continuousWithinAt (nW.cont l hl),
      (csqrt_contAt (slit_mem hev)).tendsto.comp nW.lim⟩
  refine key.congr fun l hl => ?_
  have L := layerOK_gam (lam := l) ho hκ hk0 hv (hp l) rfl
  have h1 := lp_ne hl
  rw [div_eq_iff h1]
  refine sq_unique L.re ?_ ?_
  · have : csqrt (W l) * ((l : ℂ) + 1) = ((l + 1 : ℝ) : ℂ) * csqrt (W l) := by push_cast; ring
    rw [this, Complex.re_ofReal_mul]
    exact mul_pos (by positivity) (csqrt_re_pos (sW l hl))
  · rw [L.sq, eW l hl, mul_mul_mul_comm, csqrt_sq]

theorem div_slit {e v : ℂ} (he : 0 ≤ e.re ∧ 0 ≤ e.im ∧ e ≠ 0) (hv : 0 ≤ v.re ∧ 0 ≤ v.im ∧ v ≠ 0) :
    0 < ‖e / v‖ + (e / v).re := by
  have h1 : 0 < ‖e / v‖ := norm_pos_iff.2 (div_ne_zero he.2.2 hv.2.2)
  have h2 : 0 ≤ (e / v).re := by
    rw [Complex.div_re]
    have := Complex.normSq_nonneg v
    have := mul_nonneg he.1 hv.1
    have := mul_nonneg he.2.1 hv.2.1
    positivity
  linarith

/-- All admittances have their limits in the closed fourth quadrant. -/
theorem adm_quadrant {e v : ℂ} (he : 0 ≤ e.re ∧ 0 ≤ e.im ∧ e ≠ 0) (hv : 0 ≤ v.re ∧ 0 ≤ v.im ∧ v ≠ 0) :
    0 < ((1 + Complex.I) * (csqrt (e / v) / e)).re := by
  obtain ⟨a1, a2, a3, -, -⟩ := octant he.1 he.2.1 he.2.2
  obtain ⟨b1, b2, b3, -, -⟩ := octant hv.1 hv.2.1 hv.2.2
  have sa := csqrt_sq e
  have sb := csqrt_sq v
  set a := csqrt e
  set b := csqrt v
  have a0 : a ≠ 0 := fun h => by rw [h] at a1; simp at a1
  have b0 : b ≠ 0 := fun h => by rw [h] at b1; simp at b1
  have hab : csqrt (e / v) = a / b := by
    refine sq_unique (csqrt_re_pos (div_slit he hv)) ?_ ?_
    · rw [Complex.div_re]
      have := Complex.normSq_pos.2 b0
      have := mul_pos a1 b1
      have := mul_nonneg a2 b2
      positivity
    · rw [csqrt_sq, ← sa, ← sb]; field_simp
  rw [hab, ← sa]
  have : (1 + Complex.I) * (a / b / (a * a)) = (1 + Complex.I) * (a * b)⁻¹ := by field_simp
  rw [this]
  have hp := Complex.normSq_pos.2 (mul_ne_zero a0 b0)
  have r1 : 0 ≤ (a * b).re := by
    rw [Complex.mul_re]; nlinarith [mul_le_mul a3 b3 b2 a1.le]
  have r2 : 0 ≤ (a * b).im := by
    rw [Complex.mul_im]; positivity
  have r3 : 0 < (a * b).re + (a * b).im := by
    rcases r1.lt_or_eq with h | h
    · linarith
    · rcases r2.lt_or_eq with h' | h'
      · linarith
      · exact absurd (Complex.ext h.symm h'.symm) (mul_ne_zero a0 b0)
  have : ((1 + Complex.I) * (a * b)⁻¹).re = ((a * b).re + (a * b).im) / Complex.normSq (a * b) := by
    rw [Complex.mul_re, Complex.inv_re, Complex.inv_im]; simp; ring
  rw [this]; positivity

section
variable {o : Ops} {M : Medium}

theorem fam_mk (ho : Safe o) {n : ℤ} {D : ℤ → ℝ} {e v w : ℤ → ℂ} {κ : ℂ} (hκ : κ * κ = 1)
    (hord : ∀ l : ℝ, (stk n D e (fun l i => (l : ℂ) ^ 2 / v i + w i) l).Ordered)
    (hp : ∀ i, 0 ≤ i → i < n → ∀ l : ℝ, Stack.PassiveAt (e i) ((l : ℂ) ^ 2 / v i + w i))
    (he : ∀ i, 0 ≤ i → i < n → 0 ≤ (e i).re ∧ 0 ≤ (e i).im ∧ e i ≠ 0)
    (hv : ∀ i, 0 ≤ i → i < n → 0 ≤ (v i).re ∧ 0 ≤ (v i).im ∧ v i ≠ 0) :
    Fam n D e (fun l i => (l : ℂ) ^ 2 / v i + w i) (fun l i => gam o (κ * e i) (κ * v i) (κ * w i) l)
      (fun i => csqrt (e i / v i)) (1 + Complex.I) where
  good l _ := ⟨hord l, fun i h0 h1 => layerOK_gam ho hκ (fun h => by rw [h] at hκ; simp at hκ) (hv i h0 h1).2.2
    (hp i h0 h1 l) rfl⟩
  lim i h0 h1 := gam_nice ho hκ (hv i h0 h1).2.2 (hp i h0 h1) (div_slit (he i h0 h1) (hv i h0 h1))
  gre i h0 h1 := csqrt_re_pos (div_slit (he i h0 h1) (hv i h0 h1))
  yre i h0 h1 := adm_quadrant (he i h0 h1) (hv i h0 h1)

variable (hM : M.OK) (hP : ∀ i, 0 ≤ i → i < M.n → Physical (layerMed M i)) (ho : Safe o)
include hM hP ho

theorem fam_tm {κ : ℂ} (hκ : κ * κ = 1) :
    Fam M.n M.D M.etaH (fun l i => (l : ℂ) ^ 2 / M.etaV i + M.zetaH i)
      (fun l i => gam o (κ * M.etaH i) (κ * M.etaV i) (κ * M.zetaH i) l)
      (fun i => csqrt (M.etaH i / M.etaV i)) (1 + Complex.I) :=
  fam_mk ho hκ (fun l => OK.tm_ord hM l) (fun i h0 h1 l => tm_passiveAt (hM.pas i h0 h1) l)
    (fun i h0 h1 => ⟨(hP i h0 h1).etaH.1.le, (hP i h0 h1).etaH.2, ne_of_re_pos (hP i h0 h1).etaH.1⟩)
    (fun i h0 h1 => ⟨(hP i h0 h1).etaV.1.le, (hP i h0 h1).etaV.2, ne_of_re_pos (hP i h0 h1).etaV.1⟩)

theorem fam_te {κ : ℂ} (hκ : κ * κ = 1) :
    Fam M.n M.D M.zetaH (fun l i => (l : ℂ) ^ 2 / M.zetaV i + M.etaH i)
      (fun l i => gam o (κ * M.zetaH i) (κ * M.zetaV i) (κ * M.etaH i) l)
      (fun i => csqrt (M.zetaH i / M.zetaV i)) (1 + Complex.I) :=
  fam_mk ho hκ (fun l => OK.te_ord hM l) (fun i h0 h1 l => te_passiveAt (hM.pas i h0 h1) l)
    (fun i h0 h1 => (hP i h0 h1).zetaH) (fun i h0 h1 => (hP i h0 h1).zetaV)

variable {s r : ℤ} {zs zr : ℝ} (hs : M.InClosed s zs) (hr : M.InClosed r zr) (hz : zs ≠ zr)
include hs hr hz

theorem greenfct_small (xd ms mr : Bool) {ab : ℕ}
    (hab : ab ∈ [11, 12, 21, 22, 14, 15, 24, 25, 13, 23, 31, 32, 34, 35, 16, 26, 33]) :
    Small (fun l => (greenfct o (earthOf M) zs zr s r l ab xd ms mr).1) ∧
    Small (fun l => (greenfct o (earthOf M) zs zr s r l ab xd ms mr).2) := by
  have v1 : ∀ i, 0 ≤ i → i < M.n → M.etaV i ≠ 0 := fun i h0 h1 => ne_of_re_pos (hP i h0 h1).etaV.1
  have v2 : ∀ i, 0 ≤ i → i < M.n → M.zetaV i ≠ 0 := fun i h0 h1 => (hP i h0 h1).zetaV.2.2
  have o1 : (1 : ℂ) * 1 = 1 := one_mul 1
  have o2 : (-1 : ℂ) * -1 = 1 := by norm_num
  have t1 := fam_tm hM hP ho o1
  have t2 := fam_te hM hP ho o1
  have t3 := fam_tm hM hP ho o2
  have t4 := fam_te hM hP ho o2
  cases mr
  · have := core_small ho one_ne_zero t1 t2 v1 v2 hs hr hz xd hab
    simp only [one_mul] at this
    simp only [greenfct_ee]
    exact this
  · cases ms
    · have := core_small ho one_ne_zero t1 t2 v1 v2 hr hs hz.symm xd hab
      simp only [one_mul] at this
      simp only [greenfct_me]
      exact this
    · have := core_small ho (neg_ne_zero.2 one_ne_zero) t4 t3 v2 v1 hs hr hz xd hab
      simp only [neg_one_mul] at this
      simp only [greenfct_mm]
      exact this

end

/-! ## The integrand -/

theorem hk_nil {o : Ops} (ho : Safe o) (l : ℝ) (ab : ℕ) (mr : Bool) (ρ ang : ℝ) (J0 J1 : ℂ) :
    hankelIntegrand (wn o l ab mr (0, 0)) ab ρ ang J0 J1 = 0 := by
  have h4 : o.div 0 (4 * (Real.pi : ℂ)) = 0 := by
    rw [ho.div _ _ (mul_ne_zero (by norm_num) (by exact_mod_cast Real.pi_ne_zero)), zero_div]
  unfold wn
  simp only [add_zero, sub_zero, h4, mul_zero, zero_mul]
  split_ifs <;> simp [hankelIntegrand]

theorem dk_small {ab : ℕ} {ang ρ : ℝ} {d1 d2 : ℝ → ℂ} (h1 : Small d1) (h2 : Small d2) :
    Small fun l => dk ab ang ρ l (d1 l, d2 l) := by
  have c0 : Continuous fun l : ℝ => besselJ0 (l * ρ) := J0_cont.comp (by fun_prop)
  have c1 : Continuous fun l : ℝ => besselJ1 (l * ρ) := J1_cont.comp (by fun_prop)
  have j0 : ∀ {f : ℝ → ℂ}, Small f → Small fun l => besselJ0 (l * ρ) * f l := fun h =>
    h.bdd c0 fun l => J0_norm _
  have j1 : ∀ {f : ℝ → ℂ}, Small f → Small fun l => besselJ1 (l * ρ) * f l := fun h =>
    h.bdd c1 fun l => J1_norm _
  unfold dk
  simp only
  split_ifs
  · refine (((j0 (h1.pow 1)).smul (sg0 ab / (8 * Real.pi) + sg2 ab * ang / (8 * Real.pi))).add
      (((j0 (h2.pow 1)).smul (-(sg0 ab / (8 * Real.pi)) + sg2 ab * ang / (8 * Real.pi))).add
      (((j1 h1).add (j1 h2)).smul (-(sg2 ab * ang / (4 * Real.pi * ρ)))))).congr fun l _ => by ring
  · exact (((j1 (h1.pow 2)).add (j1 (h2.pow 2))).smul (sg2 ab * ang / (4 * Real.pi))).congr fun l _ => by ring
  · exact (((j0 (h1.pow 3)).add (j0 (h2.pow 3))).smul (1 / (4 * Real.pi))).congr fun l _ => by ring

/-- A function which is exponentially small is bounded by one exponential everywhere. -/
theorem small_bound {f : ℝ → ℂ} (h : Small f) : ∃ C κ : ℝ, 0 < κ ∧ ∀ l, 0 ≤ l → ‖f l‖ ≤ C * Real.exp (-κ * l) := by
  obtain ⟨κ, hκ, hO⟩ := h.decay
  obtain ⟨C, hC⟩ := hO.bound
  obtain ⟨L, hL⟩ := eventually_atTop.1 hC
  have hc : ContinuousOn (fun l => ‖f l‖ * Real.exp (κ * l)) (Icc 0 (max L 0)) :=
    (h.cont.norm.mul (by fun_prop)).mono Icc_subset_Ici_self
  obtain ⟨B, hB⟩ := isCompact_Icc.bddAbove_image hc
  refine ⟨max C B, κ, hκ, fun l hl => ?_⟩
  by_cases hlL : L ≤ l
  · have := hL l hlL
    rw [Real.norm_eq_abs, abs_of_pos (Real.exp_pos _)] at this
    exact this.trans (mul_le_mul_of_nonneg_right (le_max_left _ _) (Real.exp_pos _).le)
  · push Not at hlL
    have := hB ⟨l, ⟨hl, hlL.le.trans (le_max_left _ _)⟩, rfl⟩
    have e : Real.exp (κ * l) * Real.exp (-κ * l) = 1 := by rw [← Real.exp_add]; simp
    calc ‖f l‖ = ‖f l‖ * Real.exp (κ * l) * Real.exp (-κ * l) := by rw [mul_assoc, e, mul_one]
      _ ≤ max C B * Real.exp (-κ * l) :=
        mul_le_mul_of_nonneg_right (this.trans (le_max_right _ _)) (Real.exp_pos _).le

theorem integrand_small {o : Ops} (ho : Safe o) {M : Medium} (hM : M.OK)
    (hP : ∀ i, 0 ≤ i → i < M.n → Physical (layerMed M i)) {s r : ℤ} {zs zr : ℝ} (hs : M.InClosed s zs)
    (hr : M.InClosed r zr) (hz : zs ≠ zr) (xd ms mr : Bool) (ρ ang : ℝ) {ab : ℕ}
    (hab : ab ∈ [11, 12, 21, 22, 14, 15, 24, 25, 13, 23, 31, 32, 34, 35, 16, 26, 33]) :
    Small (waveIntegrand o (earthOf M) zs zr s r ab xd ms mr ρ ang) := by
  obtain ⟨k1, k2⟩ := greenfct_small hM hP ho hs hr hz xd ms mr hab
  refine ((dk_small (ab := ab) (ang := ang) (ρ := ρ) k1 k2).smul (sg mr)).congr fun l _ => ?_
  have := hk_dk ho l hab mr 0 0 (greenfct o (earthOf M) zs zr s r l ab xd ms mr).1
    (greenfct o (earthOf M) zs zr s r l ab xd ms mr).2 ρ ang
  rw [hk_nil ho, sub_zero, zero_add, zero_add] at this
  rw [waveIntegrand, wavenumber_wn]
  exact this

theorem code_cases {a b : ℕ} (ha : 1 ≤ a ∧ a ≤ 6) (hb : 1 ≤ b ∧ b ≤ 6) {c : ℕ} {ms mr : Bool}
    (hc : checkAb (.int (10 * a + b)) = .ok (c, ms, mr)) :
    c = 36 ∨ c ∈ [11, 12, 21, 22, 14, 15, 24, 25, 13, 23, 31, 32, 34, 35, 16, 26, 33] := by
  rw [checkAb_digits ha hb] at hc
  have := congrArg Prod.fst (Except.ok.inj hc)
  simp only at this
  simp only [List.mem_cons, List.not_mem_nil, or_false]
  split_ifs at this <;> omega

/-- All codes, with code 36, for which the kernel returns zero. -/
theorem integrand_all {o : Ops} (ho : Safe o) {M : Medium} (hM : M.OK)
    (hP : ∀ i, 0 ≤ i → i < M.n → Physical (layerMed M i)) {s r : ℤ} {zs zr : ℝ} (hs : M.InClosed s zs)
    (hr : M.InClosed r zr) (hz : zs ≠ zr) (xd : Bool) (ρ ang : ℝ) {a b : ℕ} (ha : 1 ≤ a ∧ a ≤ 6) (hb : 1 ≤ b ∧ b ≤ 6)
    {c : ℕ} {ms mr : Bool} (hc : checkAb (.int (10 * a + b)) = .ok (c, ms, mr)) :
    Small (waveIntegrand o (earthOf M) zs zr s r c xd ms mr ρ ang) := by
  rcases code_cases ha hb hc with rfl | h
  · refine Small.zero.congr fun l _ => ?_
    simp [waveIntegrand, wavenumber, hankelIntegrand]
  · exact integrand_small ho hM hP hs hr hz xd ms mr ρ ang h

theorem cut_tail {f : ℝ → ℂ} (h : IntegrableOn f (Ioi 0)) {Λ : ℝ} (hΛ : 0 ≤ Λ) :
    (∫ lam in Ioi (0 : ℝ), f lam) - ∫ lam in (0 : ℝ)..Λ, f lam = ∫ lam in Ioi Λ, f lam := by
  rw [intervalIntegral.integral_of_le hΛ, sub_eq_iff_eq_add', ← setIntegral_union (Ioc_disjoint_Ioi le_rfl)
    measurableSet_Ioi (h.mono_set Ioc_subset_Ioi_self) (h.mono_set (Ioi_subset_Ioi hΛ)), Ioc_union_Ioi_eq_Ioi hΛ]

/-- **C45.**  The Hankel integral of the kernel exists.  All layered media, source and receiver in any layers at
different depths, all components, with and without `xdirect`, all offsets and angle factors: the integrand is
bounded by a decaying exponential of the wavenumber and integrable over all wavenumbers, and cutting the integral
at a finite wavenumber `Λ` leaves an error which decays exponentially with `Λ`. -/
theorem C45_decay {o : Ops} (ho : Safe o) {M : Medium} (hM : M.OK)
    (hP : ∀ i, 0 ≤ i → i < M.n → Physical (layerMed M i)) {s r : ℤ} {zs zr : ℝ} (hs : M.InClosed s zs)
    (hr : M.InClosed r zr) (hz : zs ≠ zr) (xd : Bool) (ρ ang : ℝ) {a b : ℕ} (ha : 1 ≤ a ∧ a ≤ 6) (hb : 1 ≤ b ∧ b ≤ 6)
    {c : ℕ} {ms mr : Bool} (hc : checkAb (.int (10 * a + b)) = .ok (c, ms, mr)) :
    let f := fun lam : ℝ => hankelIntegrand (wavenumber o (earthOf M) zs zr s r lam c xd ms mr) c ρ ang
      (besselJ0 (lam * ρ)) (besselJ1 (lam * ρ))
    IntegrableOn f (Ioi 0) ∧
    ∃ C κ : ℝ, 0 < κ ∧ (∀ lam, 0 ≤ lam → ‖f lam‖ ≤ C * Real.exp (-κ * lam)) ∧
      ∀ Λ, 0 ≤ Λ → ‖(∫ lam in Ioi (0 : ℝ), f lam) - ∫ lam in (0 : ℝ)..Λ, f lam‖ ≤ C / κ * Real.exp (-κ * Λ) := by
  intro f
  have h : Small f := integrand_all ho hM hP hs hr hz xd ρ ang ha hb hc
  have hi := h.int
  obtain ⟨C, κ, hκ, hB⟩ := small_bound h
  refine ⟨hi, C, κ, hκ, hB, fun Λ hΛ => ?_⟩
  have hsub : Ioi Λ ⊆ Ioi 0 := Ioi_subset_Ioi hΛ
  rw [cut_tail hi hΛ]
  have hg : IntegrableOn (fun l => C * Real.exp (-κ * l)) (Ioi Λ) :=
    (integrableOn_exp_mul_Ioi (neg_lt_zero.2 hκ) Λ).const_mul C
  calc ‖∫ lam in Ioi Λ, f lam‖ ≤ ∫ lam in Ioi Λ, C * Real.exp (-κ * lam) := by
        refine norm_integral_le_of_norm_le hg ?_
        filter_upwards [ae_restrict_mem measurableSet_Ioi] with l hl
        exact hB l (hΛ.trans (le_of_lt hl))
    _ = C / κ * Real.exp (-κ * Λ) := by
        rw [integral_const_mul, integral_exp_mul_Ioi (neg_lt_zero.2 hκ)]
        field_simp

/-! ## The field -/

theorem plane_family {M : Medium} (hM : M.OK) {s : ℤ} {zs : ℝ} (hs : M.InClosed s zs) (d : Dipole) :
    ∃ F : ℝ → ℝ → PlaneField, ∀ lam > 0, ∀ φ,
      IsPlaneField M (lam * Real.cos φ) (lam * Real.sin φ) zs s d (F lam φ) := by
  have hex : ∀ lam φ : ℝ, ∃ F, 0 < lam → IsPlaneField M (lam * Real.cos φ) (lam * Real.sin φ) zs s d F := by
    intro lam φ
    by_cases hl : 0 < lam
    · obtain ⟨F, hF⟩ := plane_exists hM hl.ne' (kx := lam * Real.cos φ) (ky := lam * Real.sin φ) (by
        have := Real.sin_sq_add_cos_sq φ
        linear_combination lam ^ 2 * this) hs d
      exact ⟨F, fun _ => hF⟩
    · exact ⟨⟨fun _ => 0, fun _ => 0, fun _ _ => 0, fun _ => 0, fun _ => 0, fun _ _ => 0⟩, fun h => absurd h hl⟩
  choose F hF using hex
  exact ⟨F, fun lam hl φ => hF lam φ hl⟩

theorem homog_closed (M : Medium) (s : ℤ) (z : ℝ) : (M.homog s).InClosed 0 z :=
  ⟨le_refl _, by simp [Medium.homog], by simp, by simp [Medium.homog]⟩

/-- The integrand of the kernel, without snapping of the azimuth, is the ring integral of the plane waves. -/
theorem wave_ring {o : Ops} (ho : Safe o) {M : Medium} (hM : M.OK) {s r : ℤ} {zs zr : ℝ} (hs : M.InClosed s zs)
    (hr : M.InClosed r zr) (hsr : zr = zs → r = s) (xd : Bool) {ρ : ℝ} (hρ : 0 < ρ) (θ : ℝ) {a b : ℕ}
    (ha : 1 ≤ a ∧ a ≤ 6) (hb : 1 ≤ b ∧ b ≤ 6) {c : ℕ} {ms mr : Bool}
    (hc : checkAb (.int (10 * a + b)) = .ok (c, ms, mr)) {F Fh : ℝ → ℝ → PlaneField}
    (hF : ∀ lam > 0, ∀ φ, IsPlaneField M (lam * Real.cos φ) (lam * Real.sin φ) zs s (unitDipole b) (F lam φ))
    (hH : ∀ lam > 0, ∀ φ, IsPlaneField (M.homog s) (lam * Real.cos φ) (lam * Real.sin φ) zs 0 (unitDipole b)
      (Fh lam φ)) {lam : ℝ} (hl : 0 < lam) :
    waveIntegrand o (earthOf M) zs zr s r c xd ms mr ρ (exactFactor θ c ms mr) lam =
      ringIntegral (fun φ => xcomp xd s r (F lam φ) (Fh lam φ) a zr) lam ρ θ := by
  obtain ⟨c', ms', mr', g1, g2⟩ := ring_all (xd := xd) (θ := θ) hM ho hl hρ hs hr hsr ha hb (hF lam hl) (hH lam hl)
  rw [hc] at g1
  obtain ⟨rfl, rfl, rfl⟩ : c = c' ∧ ms = ms' ∧ mr = mr' := by simpa using Except.ok.inj g1
  exact g2

/-- **C45, the field.**  The same for the exact solution of Maxwell's equations: the plane waves of a dipole in a
layered medium are integrable over all wavenumbers.  So the exact integration rule in C44 has a value which is the
limit of its finite parts, whatever the medium. -/
theorem C45_field {M : Medium} (hM : M.OK) (hP : ∀ i, 0 ≤ i → i < M.n → Physical (layerMed M i)) {s r : ℤ}
    {zs zr : ℝ} (hs : M.InClosed s zs) (hr : M.InClosed r zr) (hz : zs ≠ zr) {ρ : ℝ} (hρ : 0 < ρ) (θ : ℝ) {a b : ℕ}
    (ha : 1 ≤ a ∧ a ≤ 6) (hb : 1 ≤ b ∧ b ≤ 6) {F : ℝ → ℝ → PlaneField}
    (hF : ∀ lam > 0, ∀ φ, IsPlaneField M (lam * Real.cos φ) (lam * Real.sin φ) zs s (unitDipole b) (F lam φ)) :
    IntegrableOn (fun lam => ringIntegral (fun φ => (F lam φ).comp a r zr) lam ρ θ) (Ioi 0) ∧
    ∃ C κ : ℝ, 0 < κ ∧
      ∀ lam > 0, ‖ringIntegral (fun φ => (F lam φ).comp a r zr) lam ρ θ‖ ≤ C * Real.exp (-κ * lam) := by
  obtain ⟨c, ms, mr, hc⟩ : ∃ c ms mr, checkAb (.int (10 * a + b)) = .ok (c, ms, mr) :=
    ⟨_, _, _, checkAb_digits ha hb⟩
  obtain ⟨Fh, hH⟩ := plane_family (OK.homog hM hs.1 hs.2.1) (homog_closed M s zs) (unitDipole b)
  have e : ∀ lam > 0, waveIntegrand Ops.exact (earthOf M) zs zr s r c false ms mr ρ (exactFactor θ c ms mr) lam =
      ringIntegral (fun φ => (F lam φ).comp a r zr) lam ρ θ := by
    intro lam hl
    rw [wave_ring safe_exact hM hs hr (fun q => absurd q.symm hz) false hρ θ ha hb hc hF hH hl]
    simp [xcomp]
  have h := integrand_all safe_exact hM hP hs hr hz false ρ (exactFactor θ c ms mr) ha hb hc
  obtain ⟨C, κ, hκ, hB⟩ := small_bound h
  refine ⟨h.int.congr_fun (fun l hl => e l hl) measurableSet_Ioi, C, κ, hκ, fun l hl => ?_⟩
  rw [← e l hl]
  exact hB l (le_of_lt hl)

/-- A source in the sea, a receiver in the anisotropic half-space below. -/
example : ∃ F : ℝ → ℝ → PlaneField,
    let M := marine.medium (sParam 1e-20 [10] 10)
    (∀ lam > 0, ∀ φ, IsPlaneField M (lam * Real.cos φ) (lam * Real.sin φ) 950 1 (unitDipole 3) (F lam φ)) ∧
    IntegrableOn (fun lam => ringIntegral (fun φ => (F lam φ).comp 1 2 1200) lam 3000 1) (Ioi 0) := by
  have hs := sParam_spec (minFreq := 1e-20) (by norm_num) [10] 10
  have hi := sParam_im (minFreq := 1e-20) (by norm_num) [10] 10
  have hM := user_ok (m := Mins.init) (by norm_num [Mins.init]) marine_valid hs.1 hs.2
  have hn : (marine.medium (sParam 1e-20 [10] 10)).n = 3 := by simp [UserModel.medium, marine]
  have hP : ∀ i, 0 ≤ i → i < (marine.medium (sParam 1e-20 [10] 10)).n →
      Physical (layerMed (marine.medium (sParam 1e-20 [10] 10)) i) := fun i i0 i1 =>
    (user_physical (by norm_num) marine_valid i0 (by rw [hn] at i1; simpa [marine] using i1) hs.1 hs.2 hi.1).1
  have h1 : (marine.medium (sParam 1e-20 [10] 10)).InClosed 1 950 := by
    refine upper_closed ⟨by norm_num, by rw [hn]; norm_num, fun _ => ?_, fun _ => ?_⟩
    · norm_num [UserModel.medium, marine]
    · change (950 : ℝ) ≤ 1000
      norm_num
  have h2 : (marine.medium (sParam 1e-20 [10] 10)).InClosed 2 1200 := by
    refine upper_closed ⟨by norm_num, by rw [hn]; norm_num, fun _ => ?_, fun h => ?_⟩
    · change (1000 : ℝ) < 1200
      norm_num
    · rw [hn] at h; norm_num at h
  obtain ⟨F, hF⟩ := plane_family hM h1 (unitDipole 3)
  exact ⟨F, hF, (C45_field hM hP h1 h2 (by norm_num) (by norm_num) 1 (by norm_num) (by norm_num) hF).1⟩

end Verif.Props
