import Verif.Lemmas.GaussHankel
import Verif.Props.C03_Symmetries
import Verif.Props.C44_Dipole

/-!
# C57: symmetries of the modelling routine, from its arguments

C03–C07 state the symmetries for the kernel at one wavenumber.  Here they are stated for two calls of `dipole`: source and
receiver exchanged; medium, source and receiver moved; medium described with other layers; everything turned upside down.
-/

namespace Verif.Props
open Verif.Spec Verif.Py Verif.Py.W Verif.Utils Verif.Model Verif.Kernel Verif.Transform Verif.Fullspace
  Verif.Lemmas MeasureTheory Set

/-! ## Specification -/

/-- `z` lies strictly inside layer `i` of the description. -/
def inLayer (U : UserModel) (i : ℕ) (z : ℝ) : Prop :=
  i ≤ U.z.length ∧ (i ≠ 0 → U.z.getD (i - 1) 0 < z) ∧ (i ≠ U.z.length → z < U.z.getD i 0)

/-- Layer `i` of `U` and layer `j` of `V` consist of the same material. -/
def SameRock (U V : UserModel) (i j : ℕ) : Prop :=
  U.rhoH i = V.rhoH j ∧ U.rhoV i = V.rhoV j ∧ U.epsH i = V.epsH j ∧ U.epsV i = V.epsV j ∧ U.muH i = V.muH j ∧
  U.muV i = V.muV j

/-- `V` is `U` moved down by `c`: apart from the interfaces, the material at depth `z + c` is the one at depth `z`.  The
numbers of layers need not agree. -/
def Moved (U V : UserModel) (c : ℝ) : Prop :=
  ∀ i j z, inLayer U i z → inLayer V j (z + c) → SameRock U V i j

/-- `V` is `U` turned upside down. -/
def Mirrored (U V : UserModel) : Prop :=
  ∀ i j z, inLayer U i z → inLayer V j (-z) → SameRock U V i j

/-- Both depths belong to one layer (an interface belongs to the layer above it). -/
def SameLayer (U : UserModel) (z1 z2 : ℝ) : Prop :=
  ∃ i, (U.medium 1).InUpper i z1 ∧ (U.medium 1).InUpper i z2

/-- An azimuth that is a multiple of 45°, or not within `1e-9` of one. -/
def ClearAngle (θ : ℝ) : Prop := ∀ k : ℤ, θ = k * (Real.pi / 4) ∨ 1e-9 < |θ - k * (Real.pi / 4)|

/-- What is needed of an integration rule: it looks at positive wavenumbers, and is odd. -/
structure OddRule (T : HRule) : Prop where
  pos : ∀ ρ > 0, ∀ g h, (∀ lam > 0, ∀ x y, g lam x y = h lam x y) → T ρ g = T ρ h
  neg : ∀ ρ g, T ρ (fun lam x y => -g lam x y) = -T ρ g

/-- Every digital filter with positive base is one. -/
theorem filter_odd {F : Filter} (hF : ∀ k < F.n, 0 < F.base k) : OddRule (filterRule F) where
  pos ρ hρ g h e := by
    unfold filterRule
    congr 1
    refine Finset.sum_congr rfl fun k hk => e _ (div_pos (hF k (Finset.mem_range.1 hk)) hρ) _ _
  neg ρ g := by
    unfold filterRule
    rw [Finset.sum_neg_distrib, neg_div]

/-- So is exact integration. -/
theorem exact_odd : OddRule (besselRule fun _ g => ∫ lam in Ioi (0 : ℝ), g lam) where
  pos ρ hρ g h e := by
    unfold besselRule
    exact setIntegral_congr_fun measurableSet_Ioi fun lam hl => e lam hl _ _
  neg ρ g := by
    unfold besselRule
    exact integral_neg _

theorem OddRule.sign {T : HRule} (h : OddRule T) {σ : ℂ} (hσ : σ = 1 ∨ σ = -1) (ρ : ℝ) (g : ℝ → ℂ → ℂ → ℂ) :
    T ρ (fun lam x y => σ * g lam x y) = σ * T ρ g := by
  rcases hσ with rfl | rfl
  · simp only [one_mul]
  · simp only [neg_one_mul]; exact h.neg ρ g

/-! ## The Bessel functions are independent -/

theorem J1_not_zero : ¬ ∀ t > 0, besselJ1 t = 0 := by
  intro h
  have h0 : ∀ t > 0, besselJ0 t = 0 := by
    intro t ht
    have d := J1_deriv ht.ne'
    have e : besselJ1 =ᶠ[nhds t] fun _ => 0 := by
      filter_upwards [Ioi_mem_nhds ht] with x hx using h x hx
    have := (d.congr_of_eventuallyEq e.symm).unique (hasDerivAt_const t (0 : ℂ))
    rw [h t ht] at this
    simpa using this
  have l1 : Filter.Tendsto besselJ0 (nhdsWithin 0 (Ioi 0)) (nhds 1) := by
    have := (J0_cont.tendsto 0).mono_left (nhdsWithin_le_nhds (s := Ioi (0 : ℝ)))
    rwa [J0_zero] at this
  have l2 : Filter.Tendsto besselJ0 (nhdsWithin 0 (Ioi 0)) (nhds 0) := by
    refine tendsto_const_nhds.congr' ?_
    filter_upwards [self_mem_nhdsWithin] with t ht using (h0 t ht).symm
  exact one_ne_zero (tendsto_nhds_unique l1 l2)

theorem J1_at_zero : besselJ1 0 = 0 := by
  unfold besselJ1
  have : ∫ φ in (0 : ℝ)..(2 * Real.pi), (Real.cos φ : ℂ) = 0 := by
    rw [intervalIntegral.integral_ofReal, integral_cos, Real.sin_two_pi, Real.sin_zero]; simp
  simp only [Complex.ofReal_zero, mul_zero, zero_mul, Complex.exp_zero, mul_one]
  rw [this, mul_zero]

theorem indep {P K : ℂ} (h : ∀ t > 0, P * besselJ0 t + K * besselJ1 t = 0) : P = 0 ∧ K = 0 := by
  have hP : P = 0 := by
    have l1 : Filter.Tendsto (fun t => P * besselJ0 t + K * besselJ1 t) (nhdsWithin 0 (Ioi 0)) (nhds (P * 1 + K * 0)) := by
      have c : Continuous fun t : ℝ => P * besselJ0 t + K * besselJ1 t := by
        have := J0_cont
        have := J1_cont
        fun_prop
      have := (c.tendsto 0).mono_left (nhdsWithin_le_nhds (s := Ioi (0 : ℝ)))
      simpa [J0_zero, J1_at_zero] using this
    have l2 : Filter.Tendsto (fun t => P * besselJ0 t + K * besselJ1 t) (nhdsWithin 0 (Ioi 0)) (nhds 0) := by
      refine tendsto_const_nhds.congr' ?_
      filter_upwards [self_mem_nhdsWithin] with t ht using (h t ht).symm
    simpa using tendsto_nhds_unique l1 l2
  refine ⟨hP, ?_⟩
  by_contra hK
  refine J1_not_zero fun t ht => ?_
  have := h t ht
  rw [hP, zero_mul, zero_add] at this
  exact (mul_eq_zero.1 this).resolve_left hK

theorem indep' {P K : ℂ} (h : ∀ t > 0, P * besselJ0 t + K * (besselJ1 t / t) = 0) : P = 0 ∧ K = 0 := by
  have h2 : ∀ t > 0, (2 * P + K) * besselJ0 t = P * t * besselJ1 t := by
    intro t ht
    have ht' : (t : ℂ) ≠ 0 := by exact_mod_cast ht.ne'
    have d0 := J0_deriv t
    have d1 := J1_deriv ht.ne'
    have dt : HasDerivAt (fun t : ℝ => (t : ℂ)) 1 t := by
      simpa using (hasDerivAt_id t).ofReal_comp
    have dd := ((dt.mul d0).const_mul P).add (d1.const_mul K)
    have e : (fun t : ℝ => P * ((t : ℂ) * besselJ0 t) + K * besselJ1 t) =ᶠ[nhds t] fun _ => 0 := by
      filter_upwards [Ioi_mem_nhds ht] with x hx
      have hx' : (x : ℂ) ≠ 0 := by
        have : (0 : ℝ) < x := hx
        exact_mod_cast this.ne'
      have := h x hx
      field_simp at this
      linear_combination this
    have := (dd.congr_of_eventuallyEq (by
      filter_upwards [e] with x hx
      exact hx.symm)).unique (hasDerivAt_const t (0 : ℂ))
    have h0 := h t ht
    linear_combination this + h0
  have hK : 2 * P + K = 0 := by
    have l1 : Filter.Tendsto (fun t : ℝ => (2 * P + K) * besselJ0 t - P * t * besselJ1 t) (nhdsWithin 0 (Ioi 0))
        (nhds ((2 * P + K) * 1 - P * 0 * 0)) := by
      have c : Continuous fun t : ℝ => (2 * P + K) * besselJ0 t - P * t * besselJ1 t := by
        have := J0_cont
        have := J1_cont
        fun_prop
      have := (c.tendsto 0).mono_left (nhdsWithin_le_nhds (s := Ioi (0 : ℝ)))
      simpa [J0_zero, J1_at_zero] using this
    have l2 : Filter.Tendsto (fun t : ℝ => (2 * P + K) * besselJ0 t - P * t * besselJ1 t) (nhdsWithin 0 (Ioi 0))
        (nhds 0) := by
      refine tendsto_const_nhds.congr' ?_
      filter_upwards [self_mem_nhdsWithin] with t ht
      rw [h2 t ht, sub_self]
    simpa using tendsto_nhds_unique l1 l2
  have hP : P = 0 := by
    by_contra hP
    refine J1_not_zero fun t ht => ?_
    have := h2 t ht
    rw [hK, zero_mul] at this
    have ht' : (t : ℂ) ≠ 0 := by exact_mod_cast ht.ne'
    exact (mul_eq_zero.1 this.symm).resolve_left (mul_ne_zero hP ht')
  exact ⟨hP, by rw [hP] at hK; simpa using hK⟩

/-- The integrand is linear in the values of the Bessel functions. -/
theorem integrand_form (k : Option ℂ × Option ℂ × Option ℂ) (c : ℕ) (f : ℝ) : ∃ X Y : ℂ, ∀ (ρ : ℝ) (x y : ℂ),
    hankelIntegrand k c ρ f x y = X * x + (if c ∈ j2codes then Y / ρ else Y) * y := by
  refine ⟨k.1.getD 0 + f * k.2.2.getD 0, f * k.2.1.getD 0, fun ρ x y => ?_⟩
  obtain ⟨k1, k2, k3⟩ := k
  unfold hankelIntegrand
  cases k1 <;> cases k2 <;> cases k3 <;> simp only [Option.getD_none, Option.getD_some] <;> split_ifs <;> ring

/-- Two integrands that agree for all offsets with the Bessel functions agree with whatever replaces the Bessel
functions: a digital filter, for example. -/
theorem integrand_any {k k' : Option ℂ × Option ℂ × Option ℂ} {c c' : ℕ} {f f' : ℝ} {σ : ℂ}
    (hj : c ∈ j2codes ↔ c' ∈ j2codes) {lam : ℝ} (hl : 0 < lam)
    (h : ∀ ρ > 0, hankelIntegrand k c ρ f (besselJ0 (lam * ρ)) (besselJ1 (lam * ρ)) =
      σ * hankelIntegrand k' c' ρ f' (besselJ0 (lam * ρ)) (besselJ1 (lam * ρ))) (ρ : ℝ) (x y : ℂ) :
    hankelIntegrand k c ρ f x y = σ * hankelIntegrand k' c' ρ f' x y := by
  obtain ⟨X, Y, e⟩ := integrand_form k c f
  obtain ⟨X', Y', e'⟩ := integrand_form k' c' f'
  have hl' : (lam : ℂ) ≠ 0 := by exact_mod_cast hl.ne'
  have key : X - σ * X' = 0 ∧ Y - σ * Y' = 0 := by
    by_cases hc : c ∈ j2codes
    · have := indep' (P := X - σ * X') (K := (Y - σ * Y') * lam) fun t ht => by
        have ht' : (t : ℂ) ≠ 0 := by exact_mod_cast ht.ne'
        have q := h (t / lam) (div_pos ht hl)
        rw [e, e', if_pos hc, if_pos (hj.1 hc), mul_div_cancel₀ _ hl.ne'] at q
        push_cast at q
        field_simp at q ⊢
        linear_combination q
      exact ⟨this.1, (mul_eq_zero.1 this.2).resolve_right hl'⟩
    · exact indep fun t ht => by
        have q := h (t / lam) (div_pos ht hl)
        rw [e, e', if_neg hc, if_neg (fun w => hc (hj.2 w)), mul_div_cancel₀ _ hl.ne'] at q
        linear_combination q
  have hX : X = σ * X' := sub_eq_zero.1 key.1
  have hY : Y = σ * Y' := sub_eq_zero.1 key.2
  rw [e, e', hX, hY]
  by_cases hc : c ∈ j2codes
  · rw [if_pos hc, if_pos (hj.1 hc)]; ring
  · rw [if_neg hc, if_neg (fun w => hc (hj.2 w))]; ring

/-! ## Azimuths -/

theorem exact_periodic (θ : ℝ) (k : ℤ) (c : ℕ) (ms mr : Bool) :
    exactFactor (θ + k * (2 * Real.pi)) c ms mr = exactFactor θ c ms mr := by
  unfold exactFactor
  dsimp only
  have e1 : θ + k * (2 * Real.pi) + Real.pi = θ + Real.pi + k * (2 * Real.pi) := by ring
  have e2 : ∀ a : ℝ, (a + k * (2 * Real.pi)) * 2 = a * 2 + ((2 * k : ℤ) : ℝ) * (2 * Real.pi) := by
    intro a; push_cast; ring
  split_ifs <;> simp only [e1, e2, Real.cos_add_int_mul_two_pi, Real.sin_add_int_mul_two_pi]

theorem clear_add {θ : ℝ} (h : ClearAngle θ) (j : ℤ) : ClearAngle (θ + j * (Real.pi / 4)) := by
  intro k
  rcases h (k - j) with h | h
  · left; rw [h]; push_cast; ring
  · right
    rw [show θ + j * (Real.pi / 4) - k * (Real.pi / 4) = θ - ((k - j : ℤ) : ℝ) * (Real.pi / 4) by push_cast; ring]
    exact h

/-- At such azimuths the snapping has no effect. -/
theorem clear_exact {θ : ℝ} (h : ClearAngle θ) (ab : ℕ) (msrc mrec : Bool) :
    angleFactor θ ab msrc mrec = exactFactor θ ab msrc mrec := by
  have hpi := Real.pi_pos
  by_cases h33 : ab ∈ [33]
  · simp only [angleFactor, exactFactor, if_pos h33]
  obtain ⟨k, hk, j1, hk'⟩ : ∃ k : ℝ, (k = if mrec = true ∧ msrc = false then Real.pi else 0) ∧
      ∃ j : ℤ, k = j * (Real.pi / 4) := by
    refine ⟨_, rfl, ?_⟩
    split_ifs
    · exact ⟨4, by push_cast; ring⟩
    · exact ⟨0, by simp⟩
  obtain ⟨d, hd, hd0⟩ : ∃ d : ℝ, (d = if ab ∈ [11, 22, 15, 24, 12, 21, 14, 25] then 2 else 1) ∧ (d = 1 ∨ d = 2) := by
    refine ⟨_, rfl, ?_⟩; split_ifs <;> simp
  have ea : ∀ x : ℝ, (if ab ∈ [11, 22, 15, 24, 12, 21, 14, 25] then
      (if mrec = true ∧ msrc = false then x + Real.pi else x) * 2
      else (if mrec = true ∧ msrc = false then x + Real.pi else x)) = (x + k) * d := by
    intro x
    rw [hk, hd]
    split_ifs <;> ring
  have hE : exactFactor θ ab msrc mrec =
      if ab ∈ [11, 22, 15, 24, 13, 31, 26, 35] then Real.cos ((θ + k) * d) else Real.sin ((θ + k) * d) := by
    unfold exactFactor
    rw [if_neg h33]
    simp only [ea]
  have snap : ∀ t : ℝ, 0 ≤ t → t ≤ 2 * Real.pi → (∃ j : ℤ, t = j * (Real.pi / 2)) →
      isclose |(θ + k) * d| t 1e-10 1e-14 → |(θ + k) * d| = t := by
    rintro t t0 t1 ⟨j, hj⟩ hc
    have hb := snap_bound (by rwa [abs_of_nonneg t0]) hc
    obtain ⟨σ, hσ, e⟩ : ∃ σ : ℤ, (σ = 1 ∨ σ = -1) ∧ (θ + k) * d = σ * |(θ + k) * d| := by
      rcases le_or_gt 0 ((θ + k) * d) with h | h
      · exact ⟨1, Or.inl rfl, by rw [abs_of_nonneg h]; push_cast; ring⟩
      · exact ⟨-1, Or.inr rfl, by rw [abs_of_neg h]; push_cast; ring⟩
    have s1 : (σ : ℝ) * σ = 1 := by rcases hσ with rfl | rfl <;> norm_num
    have s2 : |(σ : ℝ)| = 1 := by rcases hσ with rfl | rfl <;> norm_num
    obtain ⟨m, hm⟩ : ∃ m : ℤ, σ * t / d - k = m * (Real.pi / 4) := by
      rcases hd0 with h | h
      · exact ⟨σ * j * 2 - j1, by rw [h, hj, hk']; push_cast; ring⟩
      · exact ⟨σ * j - j1, by rw [h, hj, hk']; push_cast; ring⟩
    have hd' : d ≠ 0 := by rcases hd0 with h | h <;> rw [h] <;> norm_num
    have hd1 : 1 ≤ d := by rcases hd0 with h | h <;> rw [h] <;> norm_num
    have e1 : θ - m * (Real.pi / 4) = σ * (|(θ + k) * d| - t) / d := by
      rw [← hm, mul_sub, ← e]; field_simp; ring
    rcases h m with h | h
    · have h0 : σ * (|(θ + k) * d| - t) / d = 0 := by rw [← e1, h, sub_self]
      have h1 : (σ : ℝ) * (|(θ + k) * d| - t) = 0 := by
        rcases div_eq_zero_iff.1 h0 with h | h
        · exact h
        · exact absurd h hd'
      have h2 : (σ : ℝ) ≠ 0 := by intro h; rw [h] at s1; norm_num at s1
      exact sub_eq_zero.1 ((mul_eq_zero.1 h1).resolve_left h2)
    · rw [e1, abs_div, abs_mul, s2, one_mul, abs_of_pos (show 0 < d by linarith)] at h
      exact absurd ((div_le_self (abs_nonneg _) hd1).trans hb) (not_le.2 h)
  have ev : ∀ x : ℝ, Real.cos |x| = Real.cos x := Real.cos_abs
  have od : ∀ x : ℝ, Real.sin |x| = 0 → Real.sin x = 0 := by
    intro x hx
    rcases abs_choice x with h | h <;> rw [h] at hx
    · exact hx
    · rw [Real.sin_neg] at hx; linarith
  have c3 : Real.cos (3 * Real.pi / 2) = 0 := by
    rw [show 3 * Real.pi / 2 = Real.pi / 2 + Real.pi by ring, Real.cos_add_pi, Real.cos_pi_div_two, neg_zero]
  rw [hE]
  unfold angleFactor
  rw [if_neg h33]
  dsimp only
  have ha := ea θ
  generalize (if ab ∈ [11, 22, 15, 24, 12, 21, 14, 25] then
      (if mrec = true ∧ msrc = false then θ + Real.pi else θ) * 2
      else (if mrec = true ∧ msrc = false then θ + Real.pi else θ)) = a1 at ha ⊢
  subst ha
  by_cases hc : ab ∈ [11, 22, 15, 24, 13, 31, 26, 35]
  · rw [if_pos hc, if_pos hc, if_pos hc]
    by_cases t1 : isclose |(θ + k) * d| (Real.pi / 2) 1e-10 1e-14
    · rw [if_pos t1, ← ev, snap _ (by positivity) (by linarith) ⟨1, by push_cast; ring⟩ t1, Real.cos_pi_div_two]
    rw [if_neg t1]
    by_cases t2 : isclose |(θ + k) * d| (3 * Real.pi / 2) 1e-10 1e-14
    · rw [if_pos t2, ← ev, snap _ (by positivity) (by linarith) ⟨3, by push_cast; ring⟩ t2, c3]
    rw [if_neg t2]
  · rw [if_neg hc, if_neg hc, if_neg hc]
    by_cases t1 : isclose |(θ + k) * d| Real.pi 1e-10 1e-14
    · rw [if_pos t1]
      exact (od _ (by rw [snap _ (by positivity) (by linarith) ⟨2, by push_cast; ring⟩ t1, Real.sin_pi])).symm
    rw [if_neg t1]
    by_cases t2 : isclose |(θ + k) * d| (2 * Real.pi) 1e-10 1e-14
    · rw [if_pos t2]
      exact (od _ (by rw [snap _ (by positivity) (by linarith) ⟨4, by push_cast; ring⟩ t2, Real.sin_two_pi])).symm
    rw [if_neg t2]

/-- Looking back from the receiver to the source. -/
theorem theta_back {dx dy : ℝ} (h : dx ≠ 0 ∨ dy ≠ 0) :
    ∃ k : ℤ, thetaOf (-dx) (-dy) = thetaOf dx dy + Real.pi + k * (2 * Real.pi) := by
  have hz : (⟨dx, dy⟩ : ℂ) ≠ 0 := by
    intro h0
    rcases h with h | h
    · exact h (congrArg Complex.re h0)
    · exact h (congrArg Complex.im h0)
  have e : (⟨-dx, -dy⟩ : ℂ) = -⟨dx, dy⟩ := rfl
  have := Complex.arg_neg_coe_angle hz
  rw [← Real.Angle.coe_add, Real.Angle.angle_eq_iff_two_pi_dvd_sub] at this
  obtain ⟨k, hk⟩ := this
  refine ⟨k, ?_⟩
  rw [thetaOf, thetaOf, e]
  linarith

theorem rho_back (m dx dy : ℝ) : rhoOf m (-dx) (-dy) = rhoOf m dx dy := by
  simp only [rhoOf, neg_sq]

/-! ## Parts of an entry -/

/-- The closed-form part of an entry, in Cartesian coordinates. -/
theorem direct_resp {sqrt : ℂ → ℂ} {meds : List Med} {f : ℕ} (hf : f < meds.length) {a b abc : ℕ} {ms mr : Bool}
    (hc : checkAb (.int (10 * a + b)) = .ok (abc, ms, mr)) {ρ : ℝ} (hρ : 0 < ρ) (θ zs zr : ℝ) (h36 : abc ≠ 36) :
    (Fullspace.fullspace sqrt meds ρ θ zs zr abc ms mr).getD f 0 =
      resp sqrt meds f a b (ρ * Real.cos θ) (ρ * Real.sin θ) zs zr := by
  rw [resp_ok hf hc, if_pos h36]
  have hq : Real.sqrt ((ρ * Real.cos θ) ^ 2 + (ρ * Real.sin θ) ^ 2) = ρ := by
    rw [show (ρ * Real.cos θ) ^ 2 + (ρ * Real.sin θ) ^ 2 = ρ ^ 2 by
      have := Real.sin_sq_add_cos_sq θ
      linear_combination ρ ^ 2 * this, Real.sqrt_sq hρ.le]
  rw [hq, Fullspace.fullspace, getD_eq (by simpa using hf), List.getElem_map]
  rw [mul_comm ρ, mul_comm ρ]
  simp only [fullspaceAt_polar]
  rfl

theorem same_layer {m : Mins} {U : UserModel} (hU : U.Valid m.minRes) (z1 z2 : ℝ) :
    SameLayer U z1 z2 ↔ layerOf (userOut m U).depth z1 = layerOf (userOut m U).depth z2 := by
  constructor
  · rintro ⟨i, h1, h2⟩
    exact_mod_cast ((user_layer hU _ _ _).1 h1).symm.trans ((user_layer hU _ _ _).1 h2)
  · intro h
    exact ⟨_, (user_layer hU _ _ _).2 rfl, (user_layer hU _ _ _).2 (by rw [h])⟩

theorem dipole_of_full {B : Back} {A : DipoleArgs} {arr : NdArray} (h : (dipoleFull B A).val = .ok arr) :
    (dipole B A).val = .ok (if A.squeeze then arr.squeeze else arr) := by
  unfold dipole
  rw [bind_val, h]
  rfl

theorem code_facts {a b c c' : ℕ} {ms mr ms' mr' : Bool} (ha : 1 ≤ a ∧ a ≤ 6) (hb : 1 ≤ b ∧ b ≤ 6)
    (h : checkAb (.int (10 * a + b)) = .ok (c, ms, mr)) (h' : checkAb (.int (10 * b + a)) = .ok (c', ms', mr')) :
    (c = 36 ↔ c' = 36) ∧ (c ∈ j2codes ↔ c' ∈ j2codes) := by
  rw [checkAb_digits ha hb] at h
  rw [checkAb_digits hb ha] at h'
  have e := congrArg Prod.fst (Except.ok.inj h)
  have e' := congrArg Prod.fst (Except.ok.inj h')
  simp only at e e'
  rw [← e, ← e']
  obtain ⟨a1, a2⟩ := ha
  obtain ⟨b1, b2⟩ := hb
  clear e e' h h'
  interval_cases a <;> interval_cases b <;> simp [j2codes]

theorem recip_pm (a b : ℕ) : recipSign a * recipSign b = 1 ∨ recipSign a * recipSign b = -1 := by
  unfold recipSign; split_ifs <;> simp

open Classical in
/-- The value of an entry (`C44_entry`) as function of the medium, the depths, offset, azimuth and component. -/
noncomputable def entryOf (B : Back) (T : HRule) (U : UserModel) (freq : List ℝ) (xd : Option Bool) (c : ℕ) (ms mr : Bool)
    (zs zr ρ θ : ℝ) (f : ℕ) : ℂ :=
  let M := fun g => U.medium (sParam B.m.minFreq freq g)
  let ls := layerOf (userOut B.m U).depth zs
  let lr := layerOf (userOut B.m U).depth zr
  let full := (userOut B.m U).isfullspace
  (if c ≠ 36 ∧ Direct xd full (ls == lr) then
    (Fullspace.fullspace B.sqrt (freq.map fun g => layerMed (M g) lr) ρ θ zs zr c ms mr).getD f 0 else 0) +
  (if Skipped c xd full then 0 else
    T ρ (hIntegrand B.o (earthOf (M (freq.getD f 0))) zs zr ls lr c (xd.getD true) ms mr ρ (angleFactor θ c ms mr)))

theorem entries {B : Back} (hm : 0 < B.m.minRes) {T : HRule} (hB : Uses B T) {A : DipoleArgs} {U : UserModel}
    (hU : U.Valid B.m.minRes) (hA : Describes A U) {a b : ℕ} (hab : toInt A.ab = .ok (10 * a + b)) {c : ℕ} {ms mr : Bool}
    (hc : checkAb (.int (10 * a + b)) = .ok (c, ms, mr)) {xs ys xr yr : List ℝ} {zs zr : ℝ}
    (hsrc : A.src = [xs, ys, [zs]]) (hrcv : A.rcv = [xr, yr, [zr]])
    (hls : xs.length = ys.length ∨ xs.length = 1 ∨ ys.length = 1)
    (hlr : xr.length = yr.length ∨ xr.length = 1 ∨ yr.length = 1)
    (ns : 0 < numDipoles A.src) (nr : 0 < numDipoles A.rcv) :
    ∃ arr, (dipole B A).val = .ok (if A.squeeze then arr.squeeze else arr) ∧
      arr.shape = [A.freq.length, numDipoles A.rcv, numDipoles A.src] ∧
      ∀ f r s : ℕ, f < A.freq.length → r < numDipoles A.rcv → s < numDipoles A.src →
        arr.get [f, r, s] = entryOf B T U A.freq A.xdirect c ms mr zs zr
          (rhoOf B.m.minOff (bc xr r - bc xs s) (bc yr r - bc ys s))
          (thetaOf (bc xr r - bc xs s) (bc yr r - bc ys s)) f := by
  have hcA : checkAb A.ab = .ok (c, ms, mr) := by rw [checkAb, hab]; exact hc
  obtain ⟨arr, e1, e2, e3⟩ := C44_entry hm hB hU hA hcA hsrc hrcv hls hlr ns nr
  refine ⟨arr, dipole_of_full e1, e2, fun f r s hf hr hs => ?_⟩
  have := e3 f r s hf hr hs
  rw [← getD_eq hf (d := 0)] at this
  exact this

/-! ## Reciprocity -/

theorem entry_recip {B : Back} (hm : 0 < B.m.minRes) (hfr : 0 < B.m.minFreq) (ho : Safe B.o) {T : HRule} (hT : OddRule T)
    {U : UserModel} (hU : U.Valid B.m.minRes) {a b : ℕ} (ha : 1 ≤ a ∧ a ≤ 6) (hb : 1 ≤ b ∧ b ≤ 6)
    {c c' : ℕ} {ms mr ms' mr' : Bool} (hc : checkAb (.int (10 * a + b)) = .ok (c, ms, mr))
    (hc' : checkAb (.int (10 * b + a)) = .ok (c', ms', mr')) (freq : List ℝ) (xd : Option Bool) (zs zr : ℝ) {ρ θ θ' : ℝ}
    (hρ : 0 < ρ) (hcl : ClearAngle θ) {k : ℤ} (hk : θ' = θ + Real.pi + k * (2 * Real.pi)) {f : ℕ} (hf : f < freq.length) :
    entryOf B T U freq xd c ms mr zs zr ρ θ f =
      recipSign a * recipSign b * entryOf B T U freq xd c' ms' mr' zr zs ρ θ' f := by
  obtain ⟨h36, hj2⟩ := code_facts ha hb hc hc'
  have hcl' : ClearAngle θ' := by
    have := clear_add hcl (4 + 8 * k)
    rwa [show θ + ((4 + 8 * k : ℤ) : ℝ) * (Real.pi / 4) = θ' by rw [hk]; push_cast; ring] at this
  have hbeq : (layerOf (userOut B.m U).depth zr == layerOf (userOut B.m U).depth zs) =
      (layerOf (userOut B.m U).depth zs == layerOf (userOut B.m U).depth zr) := by
    by_cases h : layerOf (userOut B.m U).depth zs = layerOf (userOut B.m U).depth zr
    · rw [h]
    · rw [beq_eq_false_iff_ne.2 h, beq_eq_false_iff_ne.2 (Ne.symm h)]
  unfold entryOf
  dsimp only
  rw [mul_add, clear_exact hcl, clear_exact hcl', hbeq]
  congr 1
  · by_cases hd : c ≠ 36 ∧ Direct xd (userOut B.m U).isfullspace
        (layerOf (userOut B.m U).depth zs == layerOf (userOut B.m U).depth zr)
    · have hd' : c' ≠ 36 := fun h => hd.1 (h36.2 h)
      rw [if_pos hd, if_pos ⟨hd', hd.2⟩, direct_resp (by simpa using hf) hc hρ _ _ _ hd.1,
        direct_resp (by simpa using hf) hc' hρ _ _ _ hd', C36_reciprocity _ _ (by simpa using hf) ha hb]
      have hmed : (freq.map fun g => layerMed (U.medium (sParam B.m.minFreq freq g))
            (layerOf (userOut B.m U).depth zr)) =
          freq.map fun g => layerMed (U.medium (sParam B.m.minFreq freq g))
            (layerOf (userOut B.m U).depth zs) := by
        refine List.map_congr_left fun g _ => ?_
        rcases hd.2.2 with h | h
        · have hu := (user_full hm hU).1 h
          obtain ⟨s0, s1, -⟩ := (user_layer hU (sParam B.m.minFreq freq g) zs _).2 rfl
          obtain ⟨r0, r1, -⟩ := (user_layer hU (sParam B.m.minFreq freq g) zr _).2 rfl
          obtain ⟨q1, q2, q3, q4⟩ := user_uniform hu (sParam B.m.minFreq freq g) s0 s1 _ r0 r1
          simp only [layerMed, q1, q2, q3, q4]
        · rw [beq_iff_eq.1 h]
      have hcos : Real.cos θ' = -Real.cos θ := by
        rw [hk, Real.cos_add_int_mul_two_pi, Real.cos_add_pi]
      have hsin : Real.sin θ' = -Real.sin θ := by
        rw [hk, Real.sin_add_int_mul_two_pi, Real.sin_add_pi]
      rw [hmed, hcos, hsin, mul_neg, mul_neg]
    · rw [if_neg hd, if_neg (fun q => hd ⟨fun h => q.1 (h36.1 h), q.2⟩), mul_zero]
  · by_cases hk' : Skipped c xd (userOut B.m U).isfullspace
    · have : Skipped c' xd (userOut B.m U).isfullspace := by
        rcases hk' with h | h
        · exact Or.inl (h36.1 h)
        · exact Or.inr h
      rw [if_pos hk', if_pos this, mul_zero]
    · have : ¬ Skipped c' xd (userOut B.m U).isfullspace := by
        rintro (h | h)
        · exact hk' (Or.inl (h36.2 h))
        · exact hk' (Or.inr h)
      rw [if_neg hk', if_neg this, ← hT.sign (recip_pm a b)]
      refine hT.pos _ hρ _ _ fun lam hlam x y => ?_
      obtain ⟨s0, sre⟩ := sParam_spec hfr freq (freq.getD f 0)
      have hM := user_ok hm hU s0 sre
      unfold hIntegrand
      refine integrand_any hj2 hlam (fun ρ' hρ' => ?_) ρ x y
      rw [hk, exact_periodic]
      exact C03_code_reciprocity hM ho hlam hρ' θ (upper_closed ((user_layer hU _ _ _).2 rfl))
        (upper_closed ((user_layer hU _ _ _).2 rfl)) (fun h => by rw [h]) _ ha hb hc hc'

/-- **C57, reciprocity.**  Source and receiver coordinates exchanged, and the two digits of `ab` exchanged, everything else
as it is: the entry for receiver `r` and source `s` of the first call is, up to the sign of reciprocity, the entry for
receiver `s` and source `r` of the second.  For every valid medium, all components, all frequencies, any setting of
`xdirect`, exact integration or a digital filter.

Excluded are pairs with the same horizontal position (the code then takes the azimuth zero for both directions), and
azimuths within `1e-9` of a multiple of 45° that are not exactly such a multiple. -/
theorem C57_reciprocity {B : Back} (hm : 0 < B.m.minRes) (hfr : 0 < B.m.minFreq) (hof : 0 < B.m.minOff)
    (ho : Safe B.o) {T : HRule} (hT : OddRule T) (hB : Uses B T) {A A' : DipoleArgs}
    {U : UserModel} (hU : U.Valid B.m.minRes) (hA : Describes A U) (hA' : Describes A' U)
    (hsw : A'.src = A.rcv ∧ A'.rcv = A.src) (hfq : A'.freq = A.freq) (hxd : A'.xdirect = A.xdirect)
    {a b : ℕ} (ha : 1 ≤ a ∧ a ≤ 6) (hb : 1 ≤ b ∧ b ≤ 6) (hab : toInt A.ab = .ok (10 * a + b))
    (hab' : toInt A'.ab = .ok (10 * b + a)) {xs ys xr yr : List ℝ} {zs zr : ℝ}
    (hsrc : A.src = [xs, ys, [zs]]) (hrcv : A.rcv = [xr, yr, [zr]])
    (hls : xs.length = ys.length ∨ xs.length = 1 ∨ ys.length = 1)
    (hlr : xr.length = yr.length ∨ xr.length = 1 ∨ yr.length = 1)
    (ns : 0 < numDipoles A.src) (nr : 0 < numDipoles A.rcv) :
    ∃ arr arr', (dipole B A).val = .ok (if A.squeeze then arr.squeeze else arr) ∧
      (dipole B A').val = .ok (if A'.squeeze then arr'.squeeze else arr') ∧
      arr.shape = [A.freq.length, numDipoles A.rcv, numDipoles A.src] ∧
      arr'.shape = [A.freq.length, numDipoles A.src, numDipoles A.rcv] ∧
      ∀ f r s : ℕ, f < A.freq.length → r < numDipoles A.rcv → s < numDipoles A.src →
        (bc xr r ≠ bc xs s ∨ bc yr r ≠ bc ys s) →
        ClearAngle (thetaOf (bc xr r - bc xs s) (bc yr r - bc ys s)) →
        arr.get [f, r, s] = recipSign a * recipSign b * arr'.get [f, s, r] := by
  obtain ⟨c, ms, mr, hc⟩ : ∃ abc ms mr, checkAb (.int (10 * a + b)) = .ok (abc, ms, mr) :=
    ⟨_, _, _, checkAb_digits ha hb⟩
  obtain ⟨c', ms', mr', hc'⟩ : ∃ abc ms mr, checkAb (.int (10 * b + a)) = .ok (abc, ms, mr) :=
    ⟨_, _, _, checkAb_digits hb ha⟩
  obtain ⟨arr, e1, e2, e3⟩ := entries hm hB hU hA hab hc hsrc hrcv hls hlr ns nr
  obtain ⟨arr', g1, g2, g3⟩ := entries hm hB hU hA' hab' hc' (hsw.1.trans hrcv) (hsw.2.trans hsrc) hlr hls
    (by rw [hsw.1]; exact nr) (by rw [hsw.2]; exact ns)
  rw [hfq, hsw.1, hsw.2] at g2
  refine ⟨arr, arr', e1, g1, e2, g2, ?_⟩
  intro f r s hf hr hs hne hcl
  rw [e3 f r s hf hr hs, g3 f s r (by rw [hfq]; exact hf) (by rw [hsw.2]; exact hs) (by rw [hsw.1]; exact hr), hfq, hxd,
    show bc xs s - bc xr r = -(bc xr r - bc xs s) by ring, show bc ys s - bc yr r = -(bc yr r - bc ys s) by ring, rho_back]
  obtain ⟨k, hk⟩ := theta_back (dx := bc xr r - bc xs s) (dy := bc yr r - bc ys s) (by
    rcases hne with h | h
    · exact Or.inl (sub_ne_zero.2 h)
    · exact Or.inr (sub_ne_zero.2 h))
  exact entry_recip hm hfr ho hT hU ha hb hc hc' _ _ _ _ (lt_max_of_lt_right hof) hcl hk hf

/-! ## Other description, other place -/

theorem map_bc (p : ℝ) {x y : List ℝ} {z : ℝ} (h : x.length = y.length ∨ x.length = 1 ∨ y.length = 1) {s : ℕ}
    (hs : s < numDipoles [x, y, [z]]) : bc (x.map (· + p)) s = bc x s + p ∧ bc (y.map (· + p)) s = bc y s + p := by
  have key : ∀ l : List ℝ, (l.length = 1 ∨ s < l.length) → bc (l.map (· + p)) s = bc l s + p := by
    intro l hl
    unfold bc
    rw [List.length_map]
    by_cases h1 : l.length = 1
    · obtain ⟨w, rfl⟩ := List.length_eq_one_iff.1 h1
      simp
    · have hl' := hl.resolve_left h1
      rw [if_neg h1, if_neg h1, getD_eq (by simpa using hl'), getD_eq hl', List.getElem_map]
  simp only [numDipoles] at hs
  constructor
  · apply key; split_ifs at hs with h1 <;> omega
  · apply key; split_ifs at hs with h1 <;> omega

theorem open_in {U : UserModel} {s : ℂ} {i : ℤ} {z : ℝ} (h : (U.medium s).InOpen i z) :
    inLayer U i.toNat z ∧ 0 ≤ i ∧ i < U.z.length + 1 := by
  obtain ⟨h0, h1, h2, h3⟩ := h
  have hn : (U.medium s).n = (U.z.length : ℤ) + 1 := rfl
  rw [hn] at h1 h3
  refine ⟨⟨by omega, fun q => ?_, fun q => ?_⟩, h0, h1⟩
  · have := h2 (by omega)
    simpa only [UserModel.medium, if_pos (show (1 : ℤ) ≤ i by omega)] using this
  · have := h3 (by omega)
    rw [show (U.medium s).D (i + 1) = U.z.getD i.toNat 0 by
      simp only [UserModel.medium, if_pos (show (1 : ℤ) ≤ i + 1 by omega)]
      rw [show (i + 1).toNat - 1 = i.toNat by omega]] at this
    exact this

theorem rock_medium {U V : UserModel} {i j : ℤ} (hi : 0 ≤ i ∧ i < U.z.length + 1) (hj : 0 ≤ j ∧ j < V.z.length + 1)
    (h : SameRock U V i.toNat j.toNat) (s : ℂ) : (U.medium s).etaH i = (V.medium s).etaH j ∧
      (U.medium s).etaV i = (V.medium s).etaV j ∧ (U.medium s).zetaH i = (V.medium s).zetaH j ∧
      (U.medium s).zetaV i = (V.medium s).zetaV j := by
  obtain ⟨h1, h2, h3, h4, h5, h6⟩ := h
  simp only [UserModel.medium, UserModel.layer, if_pos hi, if_pos hj, h1, h2, h3, h4, h5, h6, and_self]

/-- Just above a depth one is inside the layer the depth belongs to. -/
theorem upper_near {M : Medium} {i : ℤ} {z : ℝ} (h : M.InUpper i z) :
    ∃ δ > 0, ∀ y, z - δ < y → y < z → M.InOpen i y := by
  obtain ⟨h0, h1, h2, h3⟩ := h
  by_cases hi : i = 0
  · exact ⟨1, one_pos, fun y _ hy => ⟨h0, h1, fun q => absurd hi q, fun q => hy.trans_le (h3 q)⟩⟩
  · refine ⟨z - M.D i, sub_pos.2 (h2 hi), fun y h4 h5 => ⟨h0, h1, fun _ => by linarith, fun q => h5.trans_le (h3 q)⟩⟩

theorem moved_layer {U V : UserModel} {c : ℝ} (h : Moved U V c) (s : ℂ) {i j : ℤ} {z : ℝ}
    (hi : (U.medium s).InUpper i z) (hj : (V.medium s).InUpper j (z + c)) :
    (U.medium s).etaH i = (V.medium s).etaH j ∧ (U.medium s).etaV i = (V.medium s).etaV j ∧
      (U.medium s).zetaH i = (V.medium s).zetaH j ∧ (U.medium s).zetaV i = (V.medium s).zetaV j := by
  obtain ⟨δ, d0, h1⟩ := upper_near hi
  obtain ⟨ε, e0, h2⟩ := upper_near hj
  have hm : 0 < min δ ε := lt_min d0 e0
  have m1 := min_le_left δ ε
  have m2 := min_le_right δ ε
  obtain ⟨a1, a2⟩ := open_in (h1 (z - min δ ε / 2) (by linarith) (by linarith))
  obtain ⟨b1, b2⟩ := open_in (h2 (z - min δ ε / 2 + c) (by linarith) (by linarith))
  exact rock_medium a2 b2 (h _ _ _ a1 b1) s

theorem moved_same {U V : UserModel} {c : ℝ} (h : Moved U V c) (s : ℂ) :
    SameMedium ((U.medium s).shift c) (V.medium s) := by
  intro i j z hi hj
  have hi' : (U.medium s).InOpen i (z - c) := by
    obtain ⟨h0, h1, h2, h3⟩ := hi
    refine ⟨h0, h1, fun q => ?_, fun q => ?_⟩
    · have := h2 q; simp only [Medium.shift] at this; linarith
    · have := h3 q; simp only [Medium.shift] at this; linarith
  obtain ⟨a1, a2⟩ := open_in hi'
  obtain ⟨b1, b2⟩ := open_in hj
  exact rock_medium a2 b2 (h _ _ _ a1 (by rwa [sub_add_cancel])) s

theorem entry_moved {B : Back} (hm : 0 < B.m.minRes) (hfr : 0 < B.m.minFreq) (ho : Safe B.o) (T : HRule)
    {U V : UserModel} (hU : U.Valid B.m.minRes) (hV : V.Valid B.m.minRes) {d : ℝ} (hmv : Moved U V d) {a b : ℕ}
    (ha : 1 ≤ a ∧ a ≤ 6) (hb : 1 ≤ b ∧ b ≤ 6)
    {c : ℕ} {ms mr : Bool} (hc : checkAb (.int (10 * a + b)) = .ok (c, ms, mr)) (freq : List ℝ) (xd : Option Bool)
    {zs zr : ℝ} (hx : xd = some false ∨
      ((U.Uniform ↔ V.Uniform) ∧ (SameLayer U zs zr ↔ SameLayer V (zs + d) (zr + d)))) {ρ : ℝ} (hρ : 0 < ρ) (θ : ℝ)
    {f : ℕ} (hf : f < freq.length) :
    entryOf B T V freq xd c ms mr (zs + d) (zr + d) ρ θ f = entryOf B T U freq xd c ms mr zs zr ρ θ f := by
  have hlay : xd ≠ some false → (layerOf (userOut B.m V).depth (zs + d) == layerOf (userOut B.m V).depth (zr + d)) =
      (layerOf (userOut B.m U).depth zs == layerOf (userOut B.m U).depth zr) := by
    intro h
    have := (hx.resolve_left h).2
    rw [same_layer hU, same_layer hV] at this
    by_cases q : layerOf (userOut B.m U).depth zs = layerOf (userOut B.m U).depth zr
    · rw [beq_iff_eq.2 q, beq_iff_eq.2 (this.1 q)]
    · rw [beq_eq_false_iff_ne.2 q, beq_eq_false_iff_ne.2 (fun w => q (this.2 w))]
  have hfull : xd ≠ some false → (userOut B.m V).isfullspace = (userOut B.m U).isfullspace := by
    intro h
    have := (hx.resolve_left h).1
    rw [← user_full (m := B.m) hm hU, ← user_full (m := B.m) hm hV] at this
    exact (Bool.eq_iff_iff.2 this).symm
  have hD : Direct xd (userOut B.m V).isfullspace
      (layerOf (userOut B.m V).depth (zs + d) == layerOf (userOut B.m V).depth (zr + d)) ↔
      Direct xd (userOut B.m U).isfullspace (layerOf (userOut B.m U).depth zs == layerOf (userOut B.m U).depth zr) := by
    by_cases h : xd = some false
    · simp [Direct, h]
    · rw [hlay h, hfull h]
  have hS : Skipped c xd (userOut B.m V).isfullspace ↔ Skipped c xd (userOut B.m U).isfullspace := by
    by_cases h : xd = some false
    · simp [Skipped, h]
    · rw [hfull h]
  have ups := fun s : ℂ => (user_layer hU s zs _).2 rfl
  have upr := fun s : ℂ => (user_layer hU s zr _).2 rfl
  have vps := fun s : ℂ => (user_layer hV s (zs + d) _).2 rfl
  have vpr := fun s : ℂ => (user_layer hV s (zr + d) _).2 rfl
  unfold entryOf
  dsimp only
  congr 1
  · by_cases hd : c ≠ 36 ∧ Direct xd (userOut B.m U).isfullspace
        (layerOf (userOut B.m U).depth zs == layerOf (userOut B.m U).depth zr)
    · rw [if_pos hd, if_pos ⟨hd.1, hD.2 hd.2⟩, direct_resp (by simpa using hf) hc hρ _ _ _ hd.1,
        direct_resp (by simpa using hf) hc hρ _ _ _ hd.1, C36_shift _ _ (by simpa using hf) ha hb]
      congr 1
      refine List.map_congr_left fun g _ => ?_
      obtain ⟨q1, q2, q3, q4⟩ := moved_layer hmv _ (upr (sParam B.m.minFreq freq g)) (vpr _)
      simp only [layerMed, q1, q2, q3, q4]
    · rw [if_neg hd, if_neg (fun q => hd ⟨q.1, hD.1 q.2⟩)]
  · by_cases hk : Skipped c xd (userOut B.m U).isfullspace
    · rw [if_pos hk, if_pos (hS.2 hk)]
    · rw [if_neg hk, if_neg (fun q => hk (hS.1 q))]
      obtain ⟨s0, sre⟩ := sParam_spec hfr freq (freq.getD f 0)
      have hM := user_ok hm hU s0 sre
      have hN := user_ok hm hV s0 sre
      obtain ⟨q1, q2, q3, q4⟩ := moved_layer hmv _ (ups _) (vps (sParam B.m.minFreq freq (freq.getD f 0)))
      obtain ⟨r1, r2, r3, r4⟩ := moved_layer hmv _ (upr _) (vpr (sParam B.m.minFreq freq (freq.getD f 0)))
      refine congrArg (T ρ) ?_
      funext lam x y
      unfold hIntegrand
      refine congrArg (fun w => hankelIntegrand w c ρ (angleFactor θ c ms mr) x y) ?_
      refine (wn_same (shift_ok hM d) hN (moved_same hmv _) ho ho (shift_closed d (upper_closed (ups _)))
        (shift_closed d (upper_closed (upr _))) ?_ (upper_closed (vps _)) (upper_closed (vpr _)) ?_ q1 q2 r2 q3 q4 r4 ?_
        hc).symm.trans (C06_depth_shift hM ho lam d (upper_closed (ups _)) (upper_closed (upr _)) ?_ _ hc)
      · intro h; rw [add_right_cancel h]
      · intro h; rw [h]
      · intro h
        have hne : xd ≠ some false := by rintro rfl; simp at h
        have := hlay hne
        rw [Bool.eq_iff_iff, beq_iff_eq, beq_iff_eq] at this
        constructor
        · intro e
          have e' : layerOf (userOut B.m U).depth zr = layerOf (userOut B.m U).depth zs := by exact_mod_cast e
          rw [this.2 e'.symm]
        · intro e
          have e' : layerOf (userOut B.m V).depth (zr + d) = layerOf (userOut B.m V).depth (zs + d) := by exact_mod_cast e
          rw [this.1 e'.symm]
      · intro h; rw [h]

/-- **C57, moves and other descriptions.**  Two calls of `dipole` that differ in the place (sources and receivers moved by
`(p, q, d)`, and the material moved down by `d`) and in the way the material is described (from top to bottom or from
bottom to top, interfaces within one material, layers without thickness, default values written out or not) return the
same values, for every way of integrating.

If the direct field is treated separately (`xdirect` not `False`), then the two descriptions have to agree on whether source
and receiver are in one layer and on whether all layers are the same: this is what `xdirect` refers to. -/
theorem C57_moved {B : Back} (hm : 0 < B.m.minRes) (hfr : 0 < B.m.minFreq) (hof : 0 < B.m.minOff)
    (ho : Safe B.o) {T : HRule} (hB : Uses B T) {A A' : DipoleArgs}
    {U V : UserModel} (hU : U.Valid B.m.minRes) (hV : V.Valid B.m.minRes) (hA : Describes A U) (hA' : Describes A' V)
    {p q d : ℝ} (hmv : Moved U V d) {xs ys xr yr : List ℝ} {zs zr : ℝ}
    (hsrc : A.src = [xs, ys, [zs]]) (hrcv : A.rcv = [xr, yr, [zr]])
    (hsrc' : A'.src = [xs.map (· + p), ys.map (· + q), [zs + d]])
    (hrcv' : A'.rcv = [xr.map (· + p), yr.map (· + q), [zr + d]])
    (hfq : A'.freq = A.freq) (hxd : A'.xdirect = A.xdirect) (habe : A'.ab = A.ab)
    (hx : A.xdirect = some false ∨ ((U.Uniform ↔ V.Uniform) ∧ (SameLayer U zs zr ↔ SameLayer V (zs + d) (zr + d))))
    {a b : ℕ} (ha : 1 ≤ a ∧ a ≤ 6) (hb : 1 ≤ b ∧ b ≤ 6) (hab : toInt A.ab = .ok (10 * a + b))
    (hls : xs.length = ys.length ∨ xs.length = 1 ∨ ys.length = 1)
    (hlr : xr.length = yr.length ∨ xr.length = 1 ∨ yr.length = 1)
    (ns : 0 < numDipoles A.src) (nr : 0 < numDipoles A.rcv) :
    ∃ arr arr', (dipole B A).val = .ok (if A.squeeze then arr.squeeze else arr) ∧
      (dipole B A').val = .ok (if A'.squeeze then arr'.squeeze else arr') ∧
      arr.shape = [A.freq.length, numDipoles A.rcv, numDipoles A.src] ∧ arr'.shape = arr.shape ∧
      ∀ f r s : ℕ, f < A.freq.length → r < numDipoles A.rcv → s < numDipoles A.src →
        arr'.get [f, r, s] = arr.get [f, r, s] := by
  obtain ⟨c, ms, mr, hc⟩ : ∃ abc ms mr, checkAb (.int (10 * a + b)) = .ok (abc, ms, mr) :=
    ⟨_, _, _, checkAb_digits ha hb⟩
  have n1 : numDipoles A'.src = numDipoles A.src := by rw [hsrc, hsrc']; simp [numDipoles]
  have n2 : numDipoles A'.rcv = numDipoles A.rcv := by rw [hrcv, hrcv']; simp [numDipoles]
  obtain ⟨arr, e1, e2, e3⟩ := entries hm hB hU hA hab hc hsrc hrcv hls hlr ns nr
  obtain ⟨arr', g1, g2, g3⟩ := entries hm hB hV hA' (by rw [habe]; exact hab) hc hsrc' hrcv' (by simpa using hls)
    (by simpa using hlr) (by rw [n1]; exact ns) (by rw [n2]; exact nr)
  refine ⟨arr, arr', e1, g1, e2, by rw [g2, e2, n1, n2, hfq], ?_⟩
  intro f r s hf hr hs
  have bs := fun w => map_bc w hls (z := zs) (s := s) (by rw [← hsrc]; exact hs)
  have br := fun w => map_bc w hlr (z := zr) (s := r) (by rw [← hrcv]; exact hr)
  rw [e3 f r s hf hr hs, g3 f r s (by rw [hfq]; exact hf) (by rw [n2]; exact hr) (by rw [n1]; exact hs), hfq, hxd,
    (bs p).1, (bs q).2, (br p).1, (br q).2, add_sub_add_right_eq_sub, add_sub_add_right_eq_sub]
  exact entry_moved hm hfr ho T hU hV hmv ha hb hc _ _ hx (lt_max_of_lt_right hof) _ hf

/-- All interfaces moved down by `d`. -/
def shifted (U : UserModel) (d : ℝ) : UserModel := { U with z := U.z.map (· + d) }

theorem shifted_getD (U : UserModel) (d : ℝ) {i : ℕ} (h : i < U.z.length) :
    (U.z.map (· + d)).getD i 0 = U.z.getD i 0 + d := by
  rw [getD_eq (by simpa using h), getD_eq h, List.getElem_map]

theorem shifted_valid {U : UserModel} {m : ℝ} (h : U.Valid m) (d : ℝ) : (shifted U d).Valid m where
  order := List.pairwise_map.2 (h.order.imp fun q => by linarith)
  len := by simpa [shifted] using h.len
  lens := by simpa [shifted] using h.lens
  rhoH i hi := h.rhoH i (by simpa [shifted] using hi)
  rhoV i hi := h.rhoV i (by simpa [shifted] using hi)
  aniso i hi := h.aniso i (by simpa [shifted] using hi)
  epsH i hi := h.epsH i (by simpa [shifted] using hi)
  epsV i hi := h.epsV i (by simpa [shifted] using hi)
  muH i hi := h.muH i (by simpa [shifted] using hi)
  muV i hi := h.muV i (by simpa [shifted] using hi)

theorem in_unique {U : UserModel} (h : U.z.Pairwise (· ≤ ·)) {i j : ℕ} {z : ℝ} (hi : inLayer U i z) (hj : inLayer U j z) :
    i = j := by
  have key : ∀ {i j : ℕ}, inLayer U i z → inLayer U j z → ¬ i < j := by
    intro i j hi hj hlt
    have h1 := hi.2.2 (by have := hj.1; omega)
    have h2 := hj.2.1 (by omega)
    have l2 : j - 1 < U.z.length := by have := hj.1; omega
    rw [getD_eq (by omega)] at h1
    rw [getD_eq l2] at h2
    rcases Nat.lt_or_ge i (j - 1) with q | q
    · have := List.pairwise_iff_getElem.1 h i (j - 1) (by omega) l2 q
      linarith
    · have e : j - 1 = i := by omega
      simp only [e] at h2
      linarith
  rcases Nat.lt_trichotomy i j with h | h | h
  · exact absurd h (key hi hj)
  · exact h
  · exact absurd h (key hj hi)

theorem shifted_moved {U : UserModel} (h : U.z.Pairwise (· ≤ ·)) (d : ℝ) : Moved U (shifted U d) d := by
  intro i j z hi hj
  have hj' : inLayer U j z := by
    obtain ⟨j1, j2, j3⟩ := hj
    have hl : (shifted U d).z.length = U.z.length := by simp [shifted]
    rw [hl] at j1 j3
    refine ⟨j1, fun q => ?_, fun q => ?_⟩
    · have := j2 q
      simp only [shifted] at this
      rw [shifted_getD _ _ (by omega)] at this
      linarith
    · have := j3 q
      simp only [shifted] at this
      rw [shifted_getD _ _ (by omega)] at this
      linarith
  rw [in_unique h hi hj']
  exact ⟨rfl, rfl, rfl, rfl, rfl, rfl⟩

theorem shifted_upper (U : UserModel) (d : ℝ) (s : ℂ) (i : ℤ) (z : ℝ) :
    ((shifted U d).medium s).InUpper i (z + d) ↔ (U.medium s).InUpper i z := by
  have hl : (shifted U d).z.length = U.z.length := by simp [shifted]
  have hn : ((shifted U d).medium s).n = (U.medium s).n := by simp [UserModel.medium, hl]
  have hD : ∀ k : ℤ, 1 ≤ k → k < (U.medium s).n → ((shifted U d).medium s).D k = (U.medium s).D k + d := by
    intro k k1 k2
    have : (U.medium s).n = (U.z.length : ℤ) + 1 := rfl
    simp only [UserModel.medium, if_pos k1, shifted]
    rw [shifted_getD _ _ (by omega)]
  unfold Medium.InUpper
  rw [hn]
  constructor
  · rintro ⟨h0, h1, h2, h3⟩
    refine ⟨h0, h1, fun q => ?_, fun q => ?_⟩
    · have := h2 q; rw [hD i (by omega) h1] at this; linarith
    · have := h3 q; rw [hD (i + 1) (by omega) (by omega)] at this; linarith
  · rintro ⟨h0, h1, h2, h3⟩
    refine ⟨h0, h1, fun q => ?_, fun q => ?_⟩
    · have := h2 q; rw [hD i (by omega) h1]; linarith
    · have := h3 q; rw [hD (i + 1) (by omega) (by omega)]; linarith

/-- **C57, origin.**  The result does not depend on the origin of the coordinates: all sources and receivers moved by
`(p, q, d)` and all interfaces by `d` gives the same values, for any setting of `xdirect`. -/
theorem C57_origin {B : Back} (hm : 0 < B.m.minRes) (hfr : 0 < B.m.minFreq) (hof : 0 < B.m.minOff)
    (ho : Safe B.o) {T : HRule} (hB : Uses B T) {A A' : DipoleArgs}
    {U : UserModel} (hU : U.Valid B.m.minRes) {p q d : ℝ} (hA : Describes A U) (hA' : Describes A' (shifted U d))
    {xs ys xr yr : List ℝ} {zs zr : ℝ}
    (hsrc : A.src = [xs, ys, [zs]]) (hrcv : A.rcv = [xr, yr, [zr]])
    (hsrc' : A'.src = [xs.map (· + p), ys.map (· + q), [zs + d]])
    (hrcv' : A'.rcv = [xr.map (· + p), yr.map (· + q), [zr + d]])
    (hfq : A'.freq = A.freq) (hxd : A'.xdirect = A.xdirect) (habe : A'.ab = A.ab)
    {a b : ℕ} (ha : 1 ≤ a ∧ a ≤ 6) (hb : 1 ≤ b ∧ b ≤ 6) (hab : toInt A.ab = .ok (10 * a + b))
    (hls : xs.length = ys.length ∨ xs.length = 1 ∨ ys.length = 1)
    (hlr : xr.length = yr.length ∨ xr.length = 1 ∨ yr.length = 1)
    (ns : 0 < numDipoles A.src) (nr : 0 < numDipoles A.rcv) :
    ∃ arr arr', (dipole B A).val = .ok (if A.squeeze then arr.squeeze else arr) ∧
      (dipole B A').val = .ok (if A'.squeeze then arr'.squeeze else arr') ∧
      arr.shape = [A.freq.length, numDipoles A.rcv, numDipoles A.src] ∧ arr'.shape = arr.shape ∧
      ∀ f r s : ℕ, f < A.freq.length → r < numDipoles A.rcv → s < numDipoles A.src →
        arr'.get [f, r, s] = arr.get [f, r, s] := by
  refine C57_moved hm hfr hof ho hB hU (shifted_valid hU d) hA hA' (shifted_moved hU.order d) hsrc hrcv hsrc' hrcv' hfq hxd
    habe (Or.inr ⟨?_, ?_⟩) ha hb hab hls hlr ns nr
  · have hl : (shifted U d).z.length = U.z.length := by simp [shifted]
    unfold UserModel.Uniform
    rw [hl]
    exact Iff.rfl
  · unfold SameLayer
    simp only [shifted_upper]

/-! ## Upside down -/

theorem scale_integrand (σ : ℂ) (w : Option ℂ × Option ℂ × Option ℂ) (c : ℕ) (ρ f : ℝ) (x y : ℂ) :
    hankelIntegrand (scale3 σ w) c ρ f x y = σ * hankelIntegrand w c ρ f x y := by
  obtain ⟨w1, w2, w3⟩ := w
  unfold hankelIntegrand scale3
  cases w1 <;> cases w2 <;> cases w3 <;> simp only [Option.map_none, Option.map_some] <;> (try split_ifs) <;> ring

theorem mirror_pm (a b : ℕ) : mirrorSign a * mirrorSign b = 1 ∨ mirrorSign a * mirrorSign b = -1 := by
  unfold mirrorSign; split_ifs <;> simp

theorem upper_open {U : UserModel} {s : ℂ} {i : ℤ} {z : ℝ} (h : (U.medium s).InUpper i z) (hz : z ∉ U.z) :
    (U.medium s).InOpen i z := by
  obtain ⟨h0, h1, h2, h3⟩ := h
  refine ⟨h0, h1, h2, fun q => lt_of_le_of_ne (h3 q) fun e => hz ?_⟩
  have hn : (U.medium s).n = (U.z.length : ℤ) + 1 := rfl
  rw [hn] at h1 q
  have hl : i.toNat < U.z.length := by omega
  rw [e, show (U.medium s).D (i + 1) = U.z.getD i.toNat 0 by
    simp only [UserModel.medium, if_pos (show (1 : ℤ) ≤ i + 1 by omega)]
    rw [show (i + 1).toNat - 1 = i.toNat by omega], getD_eq hl]
  exact List.getElem_mem hl

theorem mirrored_layer {U V : UserModel} (h : Mirrored U V) (s : ℂ) {i j : ℤ} {z : ℝ}
    (hi : (U.medium s).InOpen i z) (hj : (V.medium s).InOpen j (-z)) :
    (U.medium s).etaH i = (V.medium s).etaH j ∧ (U.medium s).etaV i = (V.medium s).etaV j ∧
      (U.medium s).zetaH i = (V.medium s).zetaH j ∧ (U.medium s).zetaV i = (V.medium s).zetaV j := by
  obtain ⟨a1, a2⟩ := open_in hi
  obtain ⟨b1, b2⟩ := open_in hj
  exact rock_medium a2 b2 (h _ _ _ a1 b1) s

theorem mirrored_same {U V : UserModel} (h : Mirrored U V) (s : ℂ) : SameMedium (U.medium s).mirror (V.medium s) := by
  intro i j z hi hj
  have hi' : (U.medium s).InOpen ((U.medium s).n - 1 - i) (-z) := by
    obtain ⟨h0, h1, h2, h3⟩ := hi
    simp only [Medium.mirror] at h1 h2 h3
    refine ⟨by omega, by omega, fun q => ?_, fun q => ?_⟩
    · have := h3 (by omega)
      rw [show (U.medium s).n - (i + 1) = (U.medium s).n - 1 - i by ring] at this
      linarith
    · have := h2 (by omega)
      rw [show (U.medium s).n - 1 - i + 1 = (U.medium s).n - i by ring]
      linarith
  exact mirrored_layer h s hi' (by rwa [neg_neg])

theorem entry_mirror {B : Back} (hm : 0 < B.m.minRes) (hfr : 0 < B.m.minFreq) (ho : Safe B.o) {T : HRule} (hT : OddRule T)
    {U V : UserModel} (hU : U.Valid B.m.minRes) (hV : V.Valid B.m.minRes) (hmv : Mirrored U V) {a b : ℕ}
    (ha : 1 ≤ a ∧ a ≤ 6) (hb : 1 ≤ b ∧ b ≤ 6)
    {c : ℕ} {ms mr : Bool} (hc : checkAb (.int (10 * a + b)) = .ok (c, ms, mr)) (freq : List ℝ) (xd : Option Bool)
    {zs zr : ℝ} (hin : zs ∉ U.z ∧ zr ∉ U.z ∧ -zs ∉ V.z ∧ -zr ∉ V.z) (hx : xd = some false ∨
      ((U.Uniform ↔ V.Uniform) ∧ (SameLayer U zs zr ↔ SameLayer V (-zs) (-zr)))) {ρ : ℝ} (hρ : 0 < ρ) (θ : ℝ)
    {f : ℕ} (hf : f < freq.length) :
    entryOf B T V freq xd c ms mr (-zs) (-zr) ρ θ f =
      mirrorSign a * mirrorSign b * entryOf B T U freq xd c ms mr zs zr ρ θ f := by
  obtain ⟨i1, i2, i3, i4⟩ := hin
  have hlay : xd ≠ some false → (layerOf (userOut B.m V).depth (-zs) == layerOf (userOut B.m V).depth (-zr)) =
      (layerOf (userOut B.m U).depth zs == layerOf (userOut B.m U).depth zr) := by
    intro h
    have := (hx.resolve_left h).2
    rw [same_layer hU, same_layer hV] at this
    by_cases q : layerOf (userOut B.m U).depth zs = layerOf (userOut B.m U).depth zr
    · rw [beq_iff_eq.2 q, beq_iff_eq.2 (this.1 q)]
    · rw [beq_eq_false_iff_ne.2 q, beq_eq_false_iff_ne.2 (fun w => q (this.2 w))]
  have hfull : xd ≠ some false → (userOut B.m V).isfullspace = (userOut B.m U).isfullspace := by
    intro h
    have := (hx.resolve_left h).1
    rw [← user_full (m := B.m) hm hU, ← user_full (m := B.m) hm hV] at this
    exact (Bool.eq_iff_iff.2 this).symm
  have hD : Direct xd (userOut B.m V).isfullspace
      (layerOf (userOut B.m V).depth (-zs) == layerOf (userOut B.m V).depth (-zr)) ↔
      Direct xd (userOut B.m U).isfullspace (layerOf (userOut B.m U).depth zs == layerOf (userOut B.m U).depth zr) := by
    by_cases h : xd = some false
    · simp [Direct, h]
    · rw [hlay h, hfull h]
  have hS : Skipped c xd (userOut B.m V).isfullspace ↔ Skipped c xd (userOut B.m U).isfullspace := by
    by_cases h : xd = some false
    · simp [Skipped, h]
    · rw [hfull h]
  have ups := fun s : ℂ => upper_open ((user_layer hU s zs _).2 rfl) i1
  have upr := fun s : ℂ => upper_open ((user_layer hU s zr _).2 rfl) i2
  have vps := fun s : ℂ => upper_open ((user_layer hV s (-zs) _).2 rfl) i3
  have vpr := fun s : ℂ => upper_open ((user_layer hV s (-zr) _).2 rfl) i4
  unfold entryOf
  dsimp only
  rw [mul_add]
  congr 1
  · by_cases hd : c ≠ 36 ∧ Direct xd (userOut B.m U).isfullspace
        (layerOf (userOut B.m U).depth zs == layerOf (userOut B.m U).depth zr)
    · rw [if_pos hd, if_pos ⟨hd.1, hD.2 hd.2⟩, direct_resp (by simpa using hf) hc hρ _ _ _ hd.1,
        direct_resp (by simpa using hf) hc hρ _ _ _ hd.1, C36_mirror _ _ (by simpa using hf) ha hb]
      congr 2
      refine List.map_congr_left fun g _ => ?_
      obtain ⟨q1, q2, q3, q4⟩ := mirrored_layer hmv _ (upr (sParam B.m.minFreq freq g)) (vpr _)
      simp only [layerMed, q1, q2, q3, q4]
    · rw [if_neg hd, if_neg (fun q => hd ⟨q.1, hD.1 q.2⟩), mul_zero]
  · by_cases hk : Skipped c xd (userOut B.m U).isfullspace
    · rw [if_pos hk, if_pos (hS.2 hk), mul_zero]
    · rw [if_neg hk, if_neg (fun q => hk (hS.1 q)), ← hT.sign (mirror_pm a b)]
      obtain ⟨s0, sre⟩ := sParam_spec hfr freq (freq.getD f 0)
      have hM := user_ok hm hU s0 sre
      have hN := user_ok hm hV s0 sre
      obtain ⟨q1, q2, q3, q4⟩ := mirrored_layer hmv _ (ups _) (vps (sParam B.m.minFreq freq (freq.getD f 0)))
      obtain ⟨r1, r2, r3, r4⟩ := mirrored_layer hmv _ (upr _) (vpr (sParam B.m.minFreq freq (freq.getD f 0)))
      refine congrArg (T ρ) ?_
      funext lam x y
      unfold hIntegrand
      rw [← scale_integrand]
      refine congrArg (fun w => hankelIntegrand w c ρ (angleFactor θ c ms mr) x y) ?_
      have us := medium_open_closed (ups (sParam B.m.minFreq freq (freq.getD f 0)))
      have ur := medium_open_closed (upr (sParam B.m.minFreq freq (freq.getD f 0)))
      have e : ∀ (n i : ℤ), n - 1 - (n - 1 - i) = i := fun n i => by ring
      refine (wn_same (mirror_ok hM) hN (mirrored_same hmv _) ho ho (mirror_closed us)
        (mirror_closed ur) ?_ (medium_open_closed (vps _)) (medium_open_closed (vpr _)) ?_ ?_ ?_ ?_ ?_ ?_ ?_ ?_
        hc).symm.trans (C07_mirror hM ho lam us ur ?_ _ ha hb hc)
      · intro h; rw [neg_inj.1 h]
      · intro h; rw [h]
      · simp only [Medium.mirror, e]; exact q1
      · simp only [Medium.mirror, e]; exact q2
      · simp only [Medium.mirror, e]; exact r2
      · simp only [Medium.mirror, e]; exact q3
      · simp only [Medium.mirror, e]; exact q4
      · simp only [Medium.mirror, e]; exact r4
      · intro h
        have hne : xd ≠ some false := by rintro rfl; simp at h
        have := hlay hne
        rw [Bool.eq_iff_iff, beq_iff_eq, beq_iff_eq] at this
        constructor
        · intro w
          have w' : layerOf (userOut B.m U).depth zr = layerOf (userOut B.m U).depth zs := by
            have := sub_right_injective w
            exact_mod_cast this
          rw [this.2 w'.symm]
        · intro w
          have w' : layerOf (userOut B.m V).depth (-zr) = layerOf (userOut B.m V).depth (-zs) := by exact_mod_cast w
          rw [this.1 w'.symm]
      · intro h; rw [h]

/-- **C57, upside down.**  Depth and the order of the layers reversed: the entries are multiplied with the reflection signs
of receiver and source component.  Sources and receivers are not on an interface (an interface belongs to the layer above
it, which is the other one after the reflection). -/
theorem C57_mirror {B : Back} (hm : 0 < B.m.minRes) (hfr : 0 < B.m.minFreq) (hof : 0 < B.m.minOff)
    (ho : Safe B.o) {T : HRule} (hT : OddRule T) (hB : Uses B T) {A A' : DipoleArgs}
    {U V : UserModel} (hU : U.Valid B.m.minRes) (hV : V.Valid B.m.minRes) (hA : Describes A U) (hA' : Describes A' V)
    (hmv : Mirrored U V) {xs ys xr yr : List ℝ} {zs zr : ℝ}
    (hsrc : A.src = [xs, ys, [zs]]) (hrcv : A.rcv = [xr, yr, [zr]])
    (hsrc' : A'.src = [xs, ys, [-zs]]) (hrcv' : A'.rcv = [xr, yr, [-zr]])
    (hfq : A'.freq = A.freq) (hxd : A'.xdirect = A.xdirect) (habe : A'.ab = A.ab)
    (hin : zs ∉ U.z ∧ zr ∉ U.z ∧ -zs ∉ V.z ∧ -zr ∉ V.z)
    (hx : A.xdirect = some false ∨ ((U.Uniform ↔ V.Uniform) ∧ (SameLayer U zs zr ↔ SameLayer V (-zs) (-zr))))
    {a b : ℕ} (ha : 1 ≤ a ∧ a ≤ 6) (hb : 1 ≤ b ∧ b ≤ 6) (hab : toInt A.ab = .ok (10 * a + b))
    (hls : xs.length = ys.length ∨ xs.length = 1 ∨ ys.length = 1)
    (hlr : xr.length = yr.length ∨ xr.length = 1 ∨ yr.length = 1)
    (ns : 0 < numDipoles A.src) (nr : 0 < numDipoles A.rcv) :
    ∃ arr arr', (dipole B A).val = .ok (if A.squeeze then arr.squeeze else arr) ∧
      (dipole B A').val = .ok (if A'.squeeze then arr'.squeeze else arr') ∧
      arr.shape = [A.freq.length, numDipoles A.rcv, numDipoles A.src] ∧ arr'.shape = arr.shape ∧
      ∀ f r s : ℕ, f < A.freq.length → r < numDipoles A.rcv → s < numDipoles A.src →
        arr'.get [f, r, s] = mirrorSign a * mirrorSign b * arr.get [f, r, s] := by
  obtain ⟨c, ms, mr, hc⟩ : ∃ abc ms mr, checkAb (.int (10 * a + b)) = .ok (abc, ms, mr) :=
    ⟨_, _, _, checkAb_digits ha hb⟩
  have n1 : numDipoles A'.src = numDipoles A.src := by rw [hsrc, hsrc']; simp [numDipoles]
  have n2 : numDipoles A'.rcv = numDipoles A.rcv := by rw [hrcv, hrcv']; simp [numDipoles]
  obtain ⟨arr, e1, e2, e3⟩ := entries hm hB hU hA hab hc hsrc hrcv hls hlr ns nr
  obtain ⟨arr', g1, g2, g3⟩ := entries hm hB hV hA' (by rw [habe]; exact hab) hc hsrc' hrcv' hls hlr
    (by rw [n1]; exact ns) (by rw [n2]; exact nr)
  refine ⟨arr, arr', e1, g1, e2, by rw [g2, e2, n1, n2, hfq], ?_⟩
  intro f r s hf hr hs
  rw [e3 f r s hf hr hs, g3 f r s (by rw [hfq]; exact hf) (by rw [n2]; exact hr) (by rw [n1]; exact hs), hfq, hxd]
  exact entry_mirror hm hfr ho hT hU hV hmv ha hb hc _ _ hin hx (lt_max_of_lt_right hof) _ hf

/-! ## Concrete cases -/

theorem clear_zero : ClearAngle 0 := by
  intro k
  by_cases h : k = 0
  · left; rw [h]; simp
  · right
    have h1 : (1 : ℝ) ≤ |(k : ℝ)| := by exact_mod_cast Int.one_le_abs h
    have h3 := Real.pi_gt_three
    rw [zero_sub, abs_neg, abs_mul, abs_of_pos (show 0 < Real.pi / 4 by linarith)]
    nlinarith

/-- An azimuth that is not a multiple of 45°. -/
example : ClearAngle 1 := by
  intro k
  right
  have h3 := Real.pi_gt_d2
  have h4 := Real.pi_lt_d2
  rcases le_or_gt k 1 with h | h
  · have : (k : ℝ) ≤ 1 := by exact_mod_cast h
    have : 1 / 10 ≤ 1 - k * (Real.pi / 4) := by nlinarith
    rw [abs_of_pos (by linarith)]; norm_num at this ⊢; linarith
  · have : (2 : ℝ) ≤ k := by exact_mod_cast h
    have : 1 - k * (Real.pi / 4) ≤ -(1 / 10) := by nlinarith
    rw [abs_of_neg (by linarith)]; norm_num at this ⊢; linarith

/-- The marine case with source and receivers exchanged: three sources, one receiver, `ab` 42. -/
noncomputable def marineBack : DipoleArgs :=
  { marineArgs with src := marineArgs.rcv, rcv := marineArgs.src, ab := .int 42 }

theorem marineBack_describes : Describes marineBack marine :=
  ⟨_, .topDown false false (by simp [marineBack, marineArgs, marine, allDepths]) rfl rfl rfl rfl rfl rfl⟩

/-- Integrated exactly: the electric `y` component of a magnetic `x` dipole is minus the magnetic `x` component of an
electric `y` dipole, here at 10 Hz and 3000 m. -/
example : ∃ arr arr', (dipole (ruleBack fun _ g => ∫ lam in Ioi (0 : ℝ), g lam) marineArgs).val = .ok (NdArray.squeeze arr) ∧
    (dipole (ruleBack fun _ g => ∫ lam in Ioi (0 : ℝ), g lam) marineBack).val = .ok (NdArray.squeeze arr') ∧
    arr.shape = [2, 3, 1] ∧ arr'.shape = [2, 1, 3] ∧ arr.get [1, 2, 0] = -arr'.get [1, 0, 2] := by
  obtain ⟨arr, arr', h1, h2, h3, h4, h5⟩ := C57_reciprocity (B := ruleBack fun _ g => ∫ lam in Ioi (0 : ℝ), g lam)
    (by norm_num [ruleBack, Mins.init]) (by norm_num [ruleBack, Mins.init]) (by norm_num [ruleBack, Mins.init])
    safe_exact exact_odd (ruleBack_uses _) marine_valid marine_describes marineBack_describes ⟨rfl, rfl⟩ rfl rfl
    (a := 2) (b := 4) (by norm_num) (by norm_num) rfl rfl (xs := [0]) (ys := [0]) (zs := 950)
    (xr := [1000, 2000, 3000]) (yr := [0]) (zr := 1000) rfl rfl (by simp) (by simp)
    (by simp [numDipoles, marineArgs]) (by simp [numDipoles, marineArgs])
  refine ⟨arr, arr', h1, h2, by simpa [marineArgs, numDipoles] using h3, by simpa [marineArgs, numDipoles] using h4, ?_⟩
  have t0 : thetaOf (bc [1000, 2000, 3000] 2 - bc [0] 0) (bc [0] 2 - bc [0] 0) = 0 := by
    have : ((⟨3000, 0⟩ : ℂ)) = ((3000 : ℝ) : ℂ) := rfl
    simp [thetaOf, bc]
    rw [this]; exact Complex.arg_ofReal_of_nonneg (by norm_num)
  have := h5 1 2 0 (by simp [marineArgs]) (by simp [numDipoles, marineArgs]) (by simp [numDipoles, marineArgs])
    (Or.inl (by simp [bc])) (by rw [t0]; exact clear_zero)
  rw [this]
  norm_num [recipSign]

/-- The sea water described as two layers. -/
noncomputable def marineTwo : UserModel :=
  ⟨[0, 500, 1000], [1e8, 0.3, 0.3, 1], some [1, 1, 1, 2], none, none, none, some [1, 1, 1, 1]⟩

theorem marineTwo_valid : marineTwo.Valid 1e-20 where
  order := by simp [marineTwo]; norm_num
  len := by simp [marineTwo]
  lens := by
    intro l h
    simp [marineTwo] at h
    rcases h with h | h <;> simp [h, marineTwo]
  rhoH := by
    intro i hi
    simp only [marineTwo, List.length_cons, List.length_nil] at hi
    interval_cases i <;> norm_num [UserModel.rhoH, marineTwo]
  rhoV := by
    intro i hi
    simp only [marineTwo, List.length_cons, List.length_nil] at hi
    interval_cases i <;> norm_num [UserModel.rhoV, UserModel.rhoH, UserModel.val, marineTwo]
  aniso := by
    intro i hi
    simp only [marineTwo, List.length_cons, List.length_nil] at hi
    interval_cases i <;> norm_num [UserModel.val, marineTwo]
  epsH := fun i _ => by norm_num [UserModel.epsH, UserModel.val, marineTwo]
  epsV := fun i _ => by norm_num [UserModel.epsV, UserModel.epsH, UserModel.val, marineTwo]
  muH := fun i _ => by norm_num [UserModel.muH, UserModel.val, marineTwo]
  muV := by
    intro i hi
    simp only [marineTwo, List.length_cons, List.length_nil] at hi
    interval_cases i <;> norm_num [UserModel.muV, UserModel.val, marineTwo]

theorem marineTwo_moved : Moved marine marineTwo 0 := by
  rintro i j z ⟨i1, i2, i3⟩ ⟨j1, j2, j3⟩
  simp only [marine, marineTwo, List.length_cons, List.length_nil] at i1 i2 i3 j1 j2 j3
  interval_cases i <;> interval_cases j <;> simp at i2 i3 j2 j3 <;>
    first
      | (exfalso; linarith)
      | (simp [SameRock, marine, marineTwo, UserModel.rhoH, UserModel.rhoV, UserModel.epsH, UserModel.epsV, UserModel.muH,
          UserModel.muV, UserModel.val])

/-- Source and receivers are in one layer in both descriptions. -/
theorem marine_same : SameLayer marine 950 1000 ∧ SameLayer marineTwo 950 1000 := by
  have d1 : (marine.medium 1).D 1 = 0 := rfl
  have d2 : (marine.medium 1).D (1 + 1) = 1000 := rfl
  have e2 : (marineTwo.medium 1).D 2 = 500 := rfl
  have e3 : (marineTwo.medium 1).D (2 + 1) = 1000 := rfl
  constructor
  · refine ⟨1, ⟨by norm_num, by simp [UserModel.medium, marine], fun _ => ?_, fun _ => ?_⟩,
      ⟨by norm_num, by simp [UserModel.medium, marine], fun _ => ?_, fun _ => ?_⟩⟩
    · rw [d1]; norm_num
    · rw [d2]; norm_num
    · rw [d1]; norm_num
    · rw [d2]
  · refine ⟨2, ⟨by norm_num, by simp [UserModel.medium, marineTwo], fun _ => ?_, fun _ => ?_⟩,
      ⟨by norm_num, by simp [UserModel.medium, marineTwo], fun _ => ?_, fun _ => ?_⟩⟩
    · rw [e2]; norm_num
    · rw [e3]; norm_num
    · rw [e2]; norm_num
    · rw [e3]

theorem marine_layered : ¬ marine.Uniform ∧ ¬ marineTwo.Uniform := by
  constructor
  · intro h
    have := (h 1 (by simp [marine]) 2 (by simp [marine])).1
    norm_num [UserModel.rhoH, marine] at this
  · intro h
    have := (h 1 (by simp [marineTwo]) 3 (by simp [marineTwo])).1
    norm_num [UserModel.rhoH, marineTwo] at this

/-- The same call with the sea water in two layers, given from bottom to top, 100 m further east; digital filter. -/
noncomputable def marineTwoArgs : DipoleArgs :=
  { marineArgs with
    src := [[0 + 100], [0 + 0], [950 + 0]]
    rcv := [[1000 + 100, 2000 + 100, 3000 + 100], [0 + 0], [1000 + 0]]
    depth := some [((1000 : ℝ) : EReal), ((500 : ℝ) : EReal), ((0 : ℝ) : EReal)]
    res := .array [1, 0.3, 0.3, 1e8]
    aniso := some [2, 1, 1, 1]
    mpermV := some [1, 1, 1, 1] }

example (R : RSpl) (F : Filter) : ∃ arr arr',
    (dipole (dlfBack Mins.init Ops.exact csqrt R F fun _ => 0) marineArgs).val = .ok (NdArray.squeeze arr) ∧
    (dipole (dlfBack Mins.init Ops.exact csqrt R F fun _ => 0) marineTwoArgs).val = .ok (NdArray.squeeze arr') ∧
    arr.shape = [2, 3, 1] ∧ arr'.shape = [2, 3, 1] ∧ arr'.get [1, 2, 0] = arr.get [1, 2, 0] := by
  have hd : Describes marineTwoArgs marineTwo :=
    ⟨_, .bottomUp false false (by simp [marineTwoArgs, marineTwo, allDepths]) (by simp [marineTwo, allDepths])
      (by simp [marineTwo]; norm_num) rfl rfl rfl rfl rfl rfl⟩
  obtain ⟨arr, arr', h1, h2, h3, h4, h5⟩ := C57_moved (B := dlfBack Mins.init Ops.exact csqrt R F fun _ => 0)
    (by norm_num [dlfBack, Mins.init]) (by norm_num [dlfBack, Mins.init]) (by norm_num [dlfBack, Mins.init])
    safe_exact (C44_dlf _ _ _ R F _) marine_valid marineTwo_valid marine_describes hd (p := 100) (q := 0)
    marineTwo_moved (xs := [0]) (ys := [0]) (zs := 950)
    (xr := [1000, 2000, 3000]) (yr := [0]) (zr := 1000) rfl rfl rfl rfl rfl rfl rfl
    (Or.inr ⟨iff_of_false marine_layered.1 marine_layered.2, iff_of_true marine_same.1 (by simpa using marine_same.2)⟩)
    (a := 2) (b := 4) (by norm_num) (by norm_num) rfl (by simp) (by simp)
    (by simp [numDipoles, marineArgs]) (by simp [numDipoles, marineArgs])
  have e3 : arr.shape = [2, 3, 1] := by simpa [marineArgs, numDipoles] using h3
  exact ⟨arr, arr', h1, h2, e3, h4.trans e3, h5 1 2 0 (by simp [marineArgs]) (by simp [numDipoles, marineArgs])
    (by simp [numDipoles, marineArgs])⟩

/-- The marine case upside down: the half-space on top, the air at the bottom. -/
noncomputable def marineDown : UserModel :=
  ⟨[-1000, 0], [1, 0.3, 1e8], some [2, 1, 1], none, none, none, none⟩

example : Mirrored marine marineDown := by
  rintro i j z ⟨i1, i2, i3⟩ ⟨j1, j2, j3⟩
  simp only [marine, marineDown, List.length_cons, List.length_nil] at i1 i2 i3 j1 j2 j3
  interval_cases i <;> interval_cases j <;> simp at i2 i3 j2 j3 <;>
    first
      | (exfalso; linarith)
      | (simp [SameRock, marine, marineDown, UserModel.rhoH, UserModel.rhoV, UserModel.epsH, UserModel.epsV, UserModel.muH,
          UserModel.muV, UserModel.val])

end Verif.Props
