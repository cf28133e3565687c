import Verif.Props.C35_Halfspace
import Verif.Lemmas.AirLap

/-!
# C35: the airwave in time and frequency domain

With the exponentially scaled modified Bessel functions as documented by scipy, the frequency-domain
airwave is the Laplace transform of its impulse response.  Together with `C35_laplace_partial` this
covers the whole response of `halfspace`.
-/

namespace Verif.Props
open MeasureTheory Set Filter Topology Verif.Halfspace Verif.Py Verif.Kernel Verif.Spec

/-- What `sp.special.ive` and `sp.special.kve` denote: `ive(n, z) = exp(-|Re z|) I_n(z)` and
`kve(n, z) = exp(z) K_n(z)`, the latter used where `Re z > 0`. -/
structure Scaled (B : Bessel) : Prop where
  ive : ∀ n z, B.ive n z = Complex.exp (-(|z.re| : ℝ)) * besselI n z
  kve : ∀ n z, 0 < z.re → B.kve n z = Complex.exp z * besselK n z

theorem rh_pos {p : Pos} (h : Regular p) : 0 < p.rh := by
  unfold Pos.rh
  rw [xy_sq]
  have := h.off
  positivity

theorem rp_cR (p : Pos) : p.rp = Lemmas.cR p.hp p.rh := by
  unfold Pos.rp Lemmas.cR
  have : p.rh ^ 2 = p.xco ^ 2 + p.yco ^ 2 := Real.sq_sqrt (by positivity)
  rw [this, add_comm]

/-- The frequency-domain airwave in terms of the unscaled functions. -/
theorem airwave_closed {B : Bessel} (hB : Scaled B) {p : Pos} (hp : Regular p) (hd : 0 < p.hp) (ab : ℕ) {s : ℂ}
    (h : 0 ≤ s.re) (h0 : s ≠ 0) :
    airwave B p ab s = p.res / (2 * Real.pi) *
      (delta ab * Lemmas.BC (csqrt (s / ((p.res / mu0 : ℝ) : ℂ))) p.hp p.rh +
        fab p ab * Lemmas.CC (csqrt (s / ((p.res / mu0 : ℝ) : ℂ))) p.hp p.rh) := by
  have hres := hp.res
  have hmu := vacuum_pos
  have hκ : 0 < p.res / mu0 := by positivity
  have hr := rh_pos hp
  have hresc : (p.res : ℂ) ≠ 0 := by exact_mod_cast hres.ne'
  have hmuc : (mu0 : ℂ) ≠ 0 := by exact_mod_cast hmu.ne'
  have hg := Lemmas.gamma_re hκ h h0
  have earg : s * mu0 / p.res = s / ((p.res / mu0 : ℝ) : ℂ) := by push_cast; field_simp
  set γ := csqrt (s / ((p.res / mu0 : ℝ) : ℂ))
  have hγ2 : γ ^ 2 = s * mu0 / p.res := by rw [earg]; exact Lemmas.csqrt_sq' _
  have hγ0 : γ ≠ 0 := Lemmas.ne_zero_of_re_pos hg
  have hsr : ((Real.sqrt p.res : ℝ) : ℂ) ≠ 0 := by exact_mod_cast (Real.sqrt_pos.2 hres).ne'
  have hsr2 : ((Real.sqrt p.res : ℝ) : ℂ) ^ 2 = p.res := by exact_mod_cast Real.sq_sqrt hres.le
  have c1 : csqrt (s * mu0) = (Real.sqrt p.res : ℝ) * γ := by
    rw [show s * (mu0 : ℂ) = p.res * (s * mu0 / p.res) by field_simp, Lemmas.csqrt_ofReal_mul hres, earg]
  have c2 : csqrt (p.res * s * mu0) = p.res * γ := by
    rw [show (p.res : ℂ) * s * mu0 = ((p.res ^ 2 : ℝ) : ℂ) * (s * mu0 / p.res) by push_cast; field_simp,
      Lemmas.csqrt_ofReal_mul (by positivity), earg, Real.sqrt_sq hres.le]
  have c3 : (s * mu0) ^ (3 / 2 : ℂ) = ((Real.sqrt p.res : ℝ) * γ) ^ 3 := by
    rw [← c1, csqrt, ← Complex.cpow_nat_mul]; norm_num
  have eR := rp_cR p
  have hRpos := Lemmas.cR_pos hd p.rh
  have hRne := Lemmas.cRC_ne hd p.rh
  have hb := Lemmas.bA_re hg hd p.rh
  have ha := Lemmas.aA_re (z := p.hp) hg hr.ne'
  have eb : γ * (p.rp + p.hp) / 2 = Lemmas.bA γ p.hp p.rh := by rw [eR]; rfl
  have ea : γ * (p.rp - p.hp) / 2 = Lemmas.aA γ p.hp p.rh := by rw [eR]; rfl
  set b := Lemmas.bA γ p.hp p.rh
  set a := Lemmas.aA γ p.hp p.rh
  have ha0 : a ≠ 0 := Lemmas.ne_zero_of_re_pos ha
  have hb0 : b ≠ 0 := Lemmas.ne_zero_of_re_pos hb
  -- the scalings cancel
  have BI : ∀ n, Complex.exp (-γ.re * p.hp) * B.ive n a = Complex.exp (-(b.re : ℝ)) * besselI n a := by
    intro n
    rw [hB.ive, ← mul_assoc, ← Complex.exp_add, abs_of_pos ha]
    congr 2
    have e : (b.re : ℝ) = γ.re * p.hp + a.re := by
      simp only [a, b]
      rw [Lemmas.aA_real, Lemmas.bA_real, Complex.re_ofReal_mul, Complex.re_ofReal_mul]; ring
    rw [e]; push_cast; ring
  have BK : ∀ n, Complex.exp (-Complex.I * b.im) * B.kve n b = Complex.exp (b.re : ℝ) * besselK n b := by
    intro n
    rw [hB.kve n b hb, ← mul_assoc, ← Complex.exp_add]
    congr 2
    conv_lhs => rw [← Complex.re_add_im b]
    simp only [Complex.add_im, Complex.ofReal_im, Complex.mul_im, Complex.I_re, Complex.I_im, Complex.ofReal_re]
    push_cast; ring
  have hE : Complex.exp (-(b.re : ℝ)) * Complex.exp (b.re : ℝ) = 1 := by
    rw [← Complex.exp_add]; simp
  have eb' : γ * ((p.rp : ℂ) + p.hp) = 2 * b := by rw [← eb]; ring
  have ea' : γ * ((p.rp : ℂ) - p.hp) = 2 * a := by rw [← ea]; ring
  have P2e : 4 * ((Real.sqrt p.res : ℝ) : ℂ) * (Complex.exp (-(b.re : ℝ)) * besselI 1 a) /
      ((Real.sqrt p.res : ℝ) * γ * (p.rp + p.hp)) = 2 * (Complex.exp (-(b.re : ℝ)) * besselI 1 a) / b := by
    rw [mul_assoc ((Real.sqrt p.res : ℝ) : ℂ) γ, eb']
    field_simp
    ring
  have hpi : (Real.pi : ℂ) ≠ 0 := by exact_mod_cast Real.pi_ne_zero
  have hsm : s * mu0 = p.res * γ ^ 2 := by rw [hγ2]; field_simp
  unfold airwave
  simp only
  rw [earg]
  rw [show csqrt (s / ((p.res / mu0 : ℝ) : ℂ)) = γ from rfl, ea, eb]
  simp only [BI, BK]
  rw [c1, c2, c3, P2e, Lemmas.I2_eq ha0, hsm]
  have eRc : (p.rp : ℂ) = (Lemmas.cR p.hp p.rh : ℂ) := by rw [eR]
  simp only [Lemmas.CC, Lemmas.BC, Lemmas.pC, Lemmas.qC, Lemmas.dC]
  rw [← eRc] at hRne ⊢
  rw [show Lemmas.aA γ p.hp p.rh = a from rfl, show Lemmas.bA γ p.hp p.rh = b from rfl]
  generalize Complex.exp (-(b.re : ℝ)) = E1 at hE ⊢
  generalize Complex.exp (b.re : ℝ) = E2 at hE ⊢
  generalize besselI 0 a = I0
  generalize besselI 1 a = I1
  generalize besselK 0 b = K0
  generalize besselK 1 b = K1
  generalize ((Real.sqrt p.res : ℝ) : ℂ) = q at *
  have ea2 : a = γ * ((p.rp : ℂ) - p.hp) / 2 := ea.symm
  have eb2 : b = γ * ((p.rp : ℂ) + p.hp) / 2 := eb.symm
  have hE' : E2 = E1⁻¹ := (inv_eq_of_mul_eq_one_right hE).symm
  have hE1 : E1 ≠ 0 := left_ne_zero_of_mul_eq_one hE
  have P2 : 4 * (E1 * I1) * (E2 * K0) - (3 * (E1 * I0) - 2 * (E1 * I1) / b + E1 * (I0 - 2 * I1 / a)) * (E2 * K1) =
      4 * I1 * K0 - 4 * I0 * K1 + 2 * I1 * K1 * (1 / a + 1 / b) := by
    rw [hE']; field_simp; ring
  have P4 : p.res * γ ^ 2 * p.hp * p.rp * (E1 * I0 * (E2 * K0) - E1 * I1 * (E2 * K1)) +
      p.res * γ * (E1 * I0) * (E2 * K1) * (p.rp + p.hp) + p.res * γ * (E1 * I1) * (E2 * K0) * (p.rp - p.hp) =
      p.res * (γ ^ 2 * p.hp * p.rp * (I0 * K0 - I1 * K1) + 2 * (a * I1 * K0 + b * I0 * K1)) := by
    rw [ea2, eb2]
    linear_combination (p.res * γ ^ 2 * p.hp * p.rp * (I0 * K0 - I1 * K1) +
      p.res * γ * I0 * K1 * (p.rp + p.hp) + p.res * γ * I1 * K0 * (p.rp - p.hp)) * hE
  rw [P2, P4, ← hsr2]
  clear P2 P4 P2e BI BK
  generalize 1 / a + 1 / b = m
  generalize a * I1 * K0 + b * I0 * K1 = Q
  field_simp
  ring

/-- The impulse response of the airwave by the two densities. -/
theorem airImp_dens {B : Bessel} (hB : Scaled B) {p : Pos} (hp : Regular p) (ab : ℕ) {t : ℝ} (ht : 0 < t) :
    airImp B p ab t = mu0 ^ 2 * p.hp / (32 * Real.pi * p.res) *
      ((delta ab - 2 * (fab p ab / p.rh ^ 2)) * Lemmas.w1 (p.res / mu0) p.hp p.rh t +
        2 * (fab p ab / p.rh ^ 2) * Lemmas.w0 (p.res / mu0) p.hp p.rh t) := by
  have hres := hp.res
  have hmu := vacuum_pos
  have hr := rh_pos hp
  have hpi := Real.pi_pos
  have hx : 0 ≤ mu0 * p.rh ^ 2 / (8 * p.res) / t := by positivity
  have ei : ∀ n : ℕ, n ≤ 1 → (B.ive n ((mu0 * p.rh ^ 2 / (8 * p.res) / t : ℝ) : ℂ)).re =
      Lemmas.rive n (mu0 * p.rh ^ 2 / (8 * p.res) / t) := by
    intro n _
    rw [hB.ive, Complex.ofReal_re, abs_of_nonneg hx]
    rfl
  have e1 : p.rh ^ 2 / (8 * (p.res / mu0)) / t = mu0 * p.rh ^ 2 / (8 * p.res) / t := by field_simp
  have e2 : -(p.hp ^ 2 / (4 * (p.res / mu0))) / t = -(mu0 * p.hp ^ 2 / (4 * p.res)) / t := by field_simp
  unfold airImp Lemmas.w1 Lemmas.w0
  simp only
  rw [ei 0 (by norm_num), ei 1 le_rfl, e1, e2]
  generalize Real.exp _ = E
  generalize Lemmas.rive 0 _ = i0
  generalize Lemmas.rive 1 _ = i1
  unfold fab
  field_simp
  ring

/-- **C35.**  The frequency-domain airwave is the Laplace transform (for `s = iω`: the Fourier
transform) of its impulse response, for source or receiver below the surface. -/
theorem C35_airwave {B : Bessel} (hB : Scaled B) {p : Pos} (hp : Regular p) (hd : 0 < p.hp) (ab : ℕ) {s : ℂ}
    (h : 0 ≤ s.re) (h0 : s ≠ 0) :
    Transforms (fun t => (partsTime B p ab false t).air) s (partsFreq B p ab s).air := by
  show Lemmas.HasLap (fun t => (partsTime B p ab false t).air) s (partsFreq B p ab s).air
  by_cases hab : ab ∈ [11, 12, 21, 22]
  · have hres := hp.res
    have hmu := vacuum_pos
    have hκ : 0 < p.res / mu0 := by positivity
    have hr := rh_pos hp
    have l1 := Lemmas.lap_w1 hκ hd hr h h0
    have l0 := Lemmas.lap_w0 hκ hd hr h h0
    have l := ((l1.smul (delta ab - 2 * (fab p ab / p.rh ^ 2))).add
      (l0.smul (2 * (fab p ab / p.rh ^ 2)))).smul (mu0 ^ 2 * p.hp / (32 * Real.pi * p.res))
    refine l.congr (fun t ht => ?_) ?_
    · simp only [partsTime, parts, hab, if_true]
      exact airImp_dens hB hp ab ht
    · simp only [partsFreq, parts, hab, if_true]
      rw [airwave_closed hB hp hd ab h h0]
      have hresc : (p.res : ℂ) ≠ 0 := by exact_mod_cast hres.ne'
      have hmuc : (mu0 : ℂ) ≠ 0 := by exact_mod_cast hmu.ne'
      have hrc : (p.rh : ℂ) ≠ 0 := by exact_mod_cast hr.ne'
      have hdc : (p.hp : ℂ) ≠ 0 := by exact_mod_cast hd.ne'
      have hpi : (Real.pi : ℂ) ≠ 0 := by exact_mod_cast Real.pi_ne_zero
      generalize Lemmas.BC _ _ _ = b
      generalize Lemmas.CC _ _ _ = c
      push_cast
      field_simp
      ring
  · simp only [partsTime, partsFreq, parts, hab, if_false]
    exact Lemmas.HasLap.zero

/-- **C35.**  The whole response of `halfspace` in the frequency domain is the Laplace transform of its
impulse response: all components, all `s ≠ 0` with `Re s ≥ 0`, source or receiver below the surface. -/
theorem C35_laplace {B : Bessel} (hB : Scaled B) {p : Pos} (hp : Regular p) (hd : 0 < p.hp) (ab : ℕ) {s : ℂ}
    (h : 0 ≤ s.re) (h0 : s ≠ 0) :
    ∃ (w : ℝ → ℝ) (v : ℂ), (∀ t, halfspaceTime B p ab 0 "dhs" t = .whole (w t)) ∧
      halfspaceFreq B p ab "dhs" s = .whole v ∧ Transforms w s v := by
  obtain ⟨_, _, hdir, _, _, href⟩ := C35_laplace_partial B hp ab h h0
  have hair := C35_airwave hB hp hd ab h h0
  refine ⟨_, _, fun t => rfl, rfl, ?_⟩
  exact Lemmas.HasLap.add (Lemmas.HasLap.add hdir href) hair

/-- There are such functions, and a configuration below the surface, off the axis. -/
example : ∃ (B : Bessel) (p : Pos), Scaled B ∧ Regular p ∧ 0 < p.hp ∧ (11 : ℕ) ∈ [11, 12, 21, 22] :=
  ⟨⟨fun n z => Complex.exp (-(|z.re| : ℝ)) * besselI n z, fun n z => Complex.exp z * besselK n z⟩,
    ⟨1000, 1, 100, 200, 3, 2⟩, ⟨fun _ _ => rfl, fun _ _ _ => rfl⟩, ⟨by norm_num, by norm_num, by norm_num⟩,
    by norm_num [Pos.hp], by decide⟩

end Verif.Props
