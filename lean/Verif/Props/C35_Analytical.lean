import Verif.Props.C35_Halfspace
import Verif.Lemmas.Passive

/-!
# C35: which solutions `analytical` accepts, and what the medium of the diffusive solutions is
-/

namespace Verif.Props
open Verif.Halfspace Verif.Py

/-! ## Accepted and rejected requests -/

/-- What the documentation excludes: names that do not exist, diffusive solutions for magnetic
sources or receivers, and time-domain responses of the complete fullspace. -/
def Unsupported (solution : String) (signal : Option ℤ) (msrc mrec : Bool) : Prop :=
  (solution ≠ "fs" ∧ solution ≠ "dfs" ∧ solution ≠ "dhs" ∧ solution ≠ "dsplit" ∧ solution ≠ "dtetm") ∨
  ((solution = "dfs" ∨ solution = "dhs" ∨ solution = "dsplit" ∨ solution = "dtetm") ∧
    (msrc = true ∨ mrec = true)) ∨
  (solution = "fs" ∧ ∃ g, signal = some g)

theorem check_cases (solution : String) (signal : Option ℤ) (msrc mrec : Bool) :
    (Unsupported solution signal msrc mrec ∧ checkSolution solution signal msrc mrec = .error .valueError) ∨
    (¬ Unsupported solution signal msrc mrec ∧ checkSolution solution signal msrc mrec = .ok ()) := by
  by_cases h1 : solution = "fs"
  · subst h1
    cases signal <;> simp [Unsupported, checkSolution]
  by_cases h2 : solution = "dfs"
  · subst h2; cases msrc <;> cases mrec <;> simp [Unsupported, checkSolution]
  by_cases h3 : solution = "dhs"
  · subst h3; cases msrc <;> cases mrec <;> simp [Unsupported, checkSolution]
  by_cases h4 : solution = "dsplit"
  · subst h4; cases msrc <;> cases mrec <;> simp [Unsupported, checkSolution]
  by_cases h5 : solution = "dtetm"
  · subst h5; cases msrc <;> cases mrec <;> simp [Unsupported, checkSolution]
  · left; simp [Unsupported, checkSolution, h1, h2, h3, h4, h5]

/-- **C35.**  The check rejects exactly the unsupported requests, and `analytical` then raises without
computing, whatever the model and geometry. -/
theorem C35_rejects (B : Bessel) (sqrt : ℂ → ℂ) (a : Setup) (solution : String) (signal : Option ℤ)
    (isList : Bool) (ab : ℕ) (msrc mrec : Bool) :
    (checkSolution solution signal msrc mrec = .error .valueError ↔
      Unsupported solution signal msrc mrec) ∧
    (checkSolution solution signal msrc mrec = .ok () ↔ ¬ Unsupported solution signal msrc mrec) ∧
    (analytical B sqrt a solution signal isList ab msrc mrec = .error .valueError ↔
      Unsupported solution signal msrc mrec) := by
  rcases check_cases solution signal msrc mrec with ⟨h, e⟩ | ⟨h, e⟩
  · refine ⟨by simp [h, e], by simp [h, e], ?_⟩
    simp only [analytical, e, h]
  · refine ⟨by simp [h, e], by simp [h, e], ?_⟩
    rw [iff_false_right h]
    intro hc
    by_cases hd : solution.toList.head? = some 'd'
    · cases signal with
      | none => cases isList <;> simp [analytical, e, hd] at hc
      | some g => simp [analytical, e, hd] at hc
    · simp [analytical, e, hd] at hc

example : Unsupported "dhs" none false true := by simp [Unsupported]
example : Unsupported "fs" (some (-1)) false false := by simp [Unsupported]
example : Unsupported "d" none false false := by simp [Unsupported]
example : ¬ Unsupported "dtetm" (some 0) false false := by simp [Unsupported]

/-- **C35.**  For electric dipoles the four diffusive outputs of `analytical` have the same layout, and
entry by entry whole, split and TE/TM split add up; frequency domain. -/
theorem C35_analytical_freq (B : Bessel) (sqrt : ℂ → ℂ) (a : Setup) (ab : ℕ) :
    ∃ f : String → ℕ → ℕ → ℕ → Out ℂ,
      (∀ sol ∈ ["dfs", "dhs", "dsplit", "dtetm"],
        analytical B sqrt a sol none false ab false false = .ok (.freq (f sol))) ∧
      ∀ i r s, AddUp fun sol => f sol i r s := by
  refine ⟨fun sol i r s => halfspaceFreq B (a.pos (s * a.nrec + r)) ab sol (a.sval i), ?_,
    fun i r s => C35_sum_freq B _ _ _⟩
  intro sol hs
  simp only [List.mem_cons, List.not_mem_nil, or_false] at hs
  rcases hs with rfl | rfl | rfl | rfl <;> simp [analytical, checkSolution]

/-- **C35.**  The same in the time domain, for every signal. -/
theorem C35_analytical_time (B : Bessel) (sqrt : ℂ → ℂ) (a : Setup) (ab : ℕ) (g : ℤ) (l : Bool) :
    ∃ f : String → ℕ → ℕ → ℕ → Out ℝ,
      (∀ sol ∈ ["dfs", "dhs", "dsplit", "dtetm"],
        analytical B sqrt a sol (some g) l ab false false = .ok (.time (f sol))) ∧
      ∀ i r s, AddUp fun sol => f sol i r s := by
  refine ⟨fun sol i r s => halfspaceTime B (a.pos (s * a.nrec + r)) ab g sol (a.time i), ?_,
    fun i r s => C35_sum_time B _ _ _ _⟩
  intro sol hs
  simp only [List.mem_cons, List.not_mem_nil, or_false] at hs
  rcases hs with rfl | rfl | rfl | rfl <;> simp [analytical, checkSolution]

/-- **C35, where the code falls short.**  A supported request for a diffusive solution in the frequency
domain raises TypeError if the frequencies are given as a list. -/
theorem C35_list_violated (B : Bessel) (sqrt : ℂ → ℂ) (a : Setup) (ab : ℕ) :
    ¬ Unsupported "dhs" none false false ∧
    analytical B sqrt a "dhs" none true ab false false = .error .typeError := by
  constructor
  · simp [Unsupported]
  · simp [analytical, checkSolution]

/-! ## The medium -/

/-- **C35.**  Without displacement currents `halfspace` recovers resistivity and anisotropy from the
conductivities it is given. -/
theorem C35_medium {ρ lam : ℝ} (hr : 0 < ρ) (hl : 0 < lam) :
    medium (1 / ρ) (1 / (ρ * lam ^ 2)) = (ρ, lam) := by
  have e1 : (1 / (1 / (ρ : ℂ))).re = ρ := by rw [one_div_one_div, Complex.ofReal_re]
  have e2 : (1 / ((ρ : ℂ) * (lam : ℂ) ^ 2)).re = 1 / (ρ * lam ^ 2) := by
    rw [show (1 / ((ρ : ℂ) * (lam : ℂ) ^ 2)) = ((1 / (ρ * lam ^ 2) : ℝ) : ℂ) by push_cast; rfl,
      Complex.ofReal_re]
  simp only [medium, e1, e2]
  congr 1
  rw [show 1 / (ρ * lam ^ 2) * ρ = (1 / lam) ^ 2 by field_simp, Real.sqrt_sq (by positivity),
    one_div_one_div]

example : medium (1 / ((3 : ℝ) : ℂ)) (1 / (((3 : ℝ) : ℂ) * ((2 : ℝ) : ℂ) ^ 2)) = (3, 2) :=
  C35_medium (by norm_num) (by norm_num)

/-- With displacement currents: the resistivity comes out too small, and the isotropic medium turns
anisotropic. -/
theorem medium_eperm {ρ w : ℝ} (hr : 0 < ρ) :
    medium (1 / ρ + Complex.I * w) (1 / ρ + Complex.I * w) =
      (ρ / (1 + (w * ρ) ^ 2), Real.sqrt (1 + (w * ρ) ^ 2)) := by
  have h1 : (0 : ℝ) < 1 + (w * ρ) ^ 2 := by positivity
  have n : (1 / (ρ : ℂ) + Complex.I * w).re = 1 / ρ := by
    rw [show (1 / (ρ : ℂ)) = ((1 / ρ : ℝ) : ℂ) by push_cast; rfl]; simp
  have n' : (1 / (ρ : ℂ) + Complex.I * w).im = w := by
    rw [show (1 / (ρ : ℂ)) = ((1 / ρ : ℝ) : ℂ) by push_cast; rfl]; simp
  have e : (1 / (1 / (ρ : ℂ) + Complex.I * w)).re = ρ / (1 + (w * ρ) ^ 2) := by
    rw [one_div, Complex.inv_re, Complex.normSq_apply, n, n']
    field_simp
  simp only [medium, e, n]
  congr 1
  rw [show 1 / ρ * (ρ / (1 + (w * ρ) ^ 2)) = 1 / (1 + (w * ρ) ^ 2) by field_simp, Real.sqrt_div zero_le_one,
    Real.sqrt_one, one_div_one_div]

/-- The vertical field of a vertical dipole at its own depth. -/
theorem direct33 (B : Bessel) {off angle z res aniso : ℝ} (ho : 0 < off) (hr : 0 < res)
    (ha : 0 < aniso) (s : ℂ) :
    (partsFreq B ⟨off, angle, z, z, res, aniso⟩ 33 s).direct =
      -(aniso : ℂ) * ((((res * aniso ^ 2 / off ^ 3 : ℝ) : ℂ) +
        ((Real.sqrt (mu0 * (res * aniso ^ 2)) / off ^ 2 : ℝ) : ℂ) * Kernel.csqrt s +
        ((mu0 / off : ℝ) : ℂ) * s) / (4 * Real.pi) *
        Complex.exp (-2 * Kernel.csqrt (s * ((mu0 * off ^ 2 / (res * aniso ^ 2 * 4) : ℝ) : ℂ)))) := by
  set p : Pos := ⟨off, angle, z, z, res, aniso⟩ with hp
  have e := xy_sq p
  have hsm : p.hsm = 0 := by simp [Pos.hsm, Pos.hm, hp]
  have rsm : p.rsm = off := by
    rw [Pos.rsm, e, hsm]; simp only [hp]; rw [zero_pow two_ne_zero, add_zero, Real.sqrt_sq ho.le]
  have tsm : p.tsm = mu0 * off ^ 2 / (res * aniso ^ 2 * 4) := by rw [Pos.tsm, rsm]
  have hs : Real.sqrt (mu0 * (res * aniso ^ 2)) = Real.sqrt (mu0 * res) * aniso := by
    rw [← mul_assoc, Real.sqrt_mul (mul_pos vacuum_pos hr).le, Real.sqrt_sq ha.le]
  have r0 : p.res = res := rfl
  have a0 : p.aniso = aniso := rfl
  have hpi : (Real.pi : ℂ) ≠ 0 := by exact_mod_cast Real.pi_pos.ne'
  have ho' : (off : ℂ) ≠ 0 := by exact_mod_cast ho.ne'
  simp only [partsFreq, parts, fFreq, coeffs, coeffsV]
  simp only [hsm, rsm, tsm, hs, r0, a0]
  simp
  field_simp
  ring

/-- **C35, where the code falls short.**  The documentation says that the electric permittivity is
ignored by the diffusive solutions.  But for every isotropic medium, frequency and non-zero
permittivity (`w = ωε`) the vertical field of a vertical dipole at its own depth is another one than
for permittivity zero. -/
theorem C35_eperm_violated (B : Bessel) {off angle z ρ w ω : ℝ} (ho : 0 < off) (hr : 0 < ρ)
    (hw : w ≠ 0) (hω : 0 < ω) :
    halfspaceFreq B ⟨off, angle, z, z, (medium (1 / ρ + Complex.I * w) (1 / ρ + Complex.I * w)).1,
      (medium (1 / ρ + Complex.I * w) (1 / ρ + Complex.I * w)).2⟩ 33 "dfs" (Complex.I * ω) ≠
    halfspaceFreq B ⟨off, angle, z, z, (medium (1 / ρ) (1 / ρ)).1, (medium (1 / ρ) (1 / ρ)).2⟩ 33
      "dfs" (Complex.I * ω) := by
  have h0 : medium (1 / (ρ : ℂ)) (1 / ρ) = (ρ, 1) := by
    have := C35_medium hr one_pos
    simpa using this
  have h1 : (0 : ℝ) < 1 + (w * ρ) ^ 2 := by positivity
  have h2 : (1 : ℝ) < 1 + (w * ρ) ^ 2 := by
    have : 0 < (w * ρ) ^ 2 := by positivity
    linarith
  have hs : 0 < Real.sqrt (1 + (w * ρ) ^ 2) := Real.sqrt_pos.2 h1
  have hs1 : Real.sqrt (1 + (w * ρ) ^ 2) ≠ 1 := by
    intro h
    have := Real.sq_sqrt h1.le
    rw [h] at this; linarith
  rw [medium_eperm hr, h0]
  have o : ∀ p, halfspaceFreq B p 33 "dfs" (Complex.I * ω) =
      .whole (partsFreq B p 33 (Complex.I * ω)).direct := fun p => rfl
  rw [o, o]
  intro h
  have h := Out.whole.inj h
  rw [direct33 B ho (by positivity) hs, direct33 B ho hr one_pos] at h
  have e : ρ / (1 + (w * ρ) ^ 2) * Real.sqrt (1 + (w * ρ) ^ 2) ^ 2 = ρ := by
    rw [Real.sq_sqrt h1.le]; field_simp
  rw [e, one_pow, mul_one] at h
  set G := (((ρ / off ^ 3 : ℝ) : ℂ) + ((Real.sqrt (mu0 * ρ) / off ^ 2 : ℝ) : ℂ) *
    Kernel.csqrt (Complex.I * ω) + ((mu0 / off : ℝ) : ℂ) * (Complex.I * ω)) / (4 * Real.pi) *
        Complex.exp (-2 * Kernel.csqrt (Complex.I * ω * ((mu0 * off ^ 2 / (ρ * 4) : ℝ) : ℂ))) with hG
  have g0 : G ≠ 0 := by
    rw [hG]
    refine mul_ne_zero (div_ne_zero ?_ ?_) (Complex.exp_ne_zero _)
    · intro hz
      have hz := congrArg Complex.re hz
      have hq : 0 ≤ (Kernel.csqrt (Complex.I * ω)).re := (Lemmas.csqrt_re_pos (by simpa using hω.ne')).le
      rw [Complex.add_re, Complex.add_re, Complex.re_ofReal_mul, Complex.re_ofReal_mul,
        Complex.ofReal_re] at hz
      have : (Complex.I * (ω : ℂ)).re = 0 := by simp
      rw [this, mul_zero, add_zero, Complex.zero_re] at hz
      have a1 : 0 < ρ / off ^ 3 := by positivity
      have a2 : 0 ≤ Real.sqrt (mu0 * ρ) / off ^ 2 * (Kernel.csqrt (Complex.I * ω)).re := by positivity
      linarith
    · have := Real.pi_pos.ne'
      exact mul_ne_zero (by norm_num) (by exact_mod_cast this)
  have h := mul_right_cancel₀ g0 h
  apply hs1
  have h := neg_inj.1 h
  exact_mod_cast h

end Verif.Props
