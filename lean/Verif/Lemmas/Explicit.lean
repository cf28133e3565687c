import Verif.Lemmas.Unique

/-! Helper lemmas: the explicit field of a point source in a stack, and its verification. -/

namespace Verif.Lemmas
open Verif.Spec Verif.Spec.Stack Complex Filter Topology Set

section amplitudes
variable (M : Stack) (G : ℤ → ℂ)

noncomputable def Yl (i : ℤ) : ℂ := G i / M.e i
noncomputable def E1 (i : ℤ) : ℂ := Complex.exp (-G i * ((M.D (i + 1) - M.D i : ℝ) : ℂ))
noncomputable def E2 (i : ℤ) : ℂ := Complex.exp (-(2 * G i) * ((M.D (i + 1) - M.D i : ℝ) : ℂ))

/-- one step of the reflection recursion, from layer `j` (already known factor `R`) to layer `i` -/
noncomputable def rstep (i j : ℤ) (R : ℂ) : ℂ :=
  ((Yl M G i - Yl M G j) / (Yl M G i + Yl M G j) + R * E2 M G j) /
    (1 + (Yl M G i - Yl M G j) / (Yl M G i + Yl M G j) * (R * E2 M G j))

noncomputable def RdnN : ℕ → ℂ
  | 0 => 0
  | k + 1 => rstep M G (M.n - 2 - k) (M.n - 2 - k + 1) (RdnN k)

noncomputable def RupN : ℕ → ℂ
  | 0 => 0
  | k + 1 => rstep M G (k + 1) k (RupN k)

/-- reflection factor at the bottom of layer `i` -/
noncomputable def Rdn (i : ℤ) : ℂ := RdnN M G (M.n - 1 - i).toNat
/-- reflection factor at the top of layer `i` -/
noncomputable def Rup (i : ℤ) : ℂ := RupN M G i.toNat

theorem Rdn_last : Rdn M G (M.n - 1) = 0 := by simp [Rdn, RdnN]
theorem Rup_first : Rup M G 0 = 0 := by simp [Rup, RupN]

theorem Rdn_step {i : ℤ} (h : i < M.n - 1) : Rdn M G i = rstep M G i (i + 1) (Rdn M G (i + 1)) := by
  unfold Rdn
  obtain ⟨k, hk⟩ : ∃ k : ℕ, (M.n - 1 - i).toNat = k + 1 := ⟨(M.n - 1 - i).toNat - 1, by omega⟩
  rw [hk, RdnN]
  have : (M.n - 1 - (i + 1)).toNat = k := by omega
  rw [this]
  have : M.n - 2 - (k : ℤ) = i := by omega
  rw [this]

theorem Rup_step {i : ℤ} (h : 0 < i) : Rup M G i = rstep M G i (i - 1) (Rup M G (i - 1)) := by
  unfold Rup
  obtain ⟨k, hk⟩ : ∃ k : ℕ, i.toNat = k + 1 := ⟨i.toNat - 1, by omega⟩
  rw [hk, RupN]
  have : (i - 1).toNat = k := by omega
  rw [this]
  have h1 : (k : ℤ) + 1 = i := by omega
  have h2 : (k : ℤ) = i - 1 := by omega
  rw [h1, h2]

theorem E1_sq (i : ℤ) : E1 M G i * E1 M G i = E2 M G i := by
  unfold E1 E2; rw [← Complex.exp_add]; congr 1; ring

end amplitudes

/-- The standing assumptions on a stack. -/
structure Good (M : Stack) (G : ℤ → ℂ) : Prop where
  ord : M.Ordered
  lay : ∀ i, 0 ≤ i → i < M.n → LayerOK (M.e i) (M.q i) (G i)

variable {M : Stack} {G : ℤ → ℂ}

theorem Good.Y_re (h : Good M G) {i : ℤ} (h0 : 0 ≤ i) (h1 : i < M.n) : 0 < (Yl M G i).re :=
  (h.lay i h0 h1).Y_re

theorem Good.adm_dn (h : Good M G) {i : ℤ} (h0 : 0 ≤ i) (h1 : i ≤ M.n - 1) :
    Adm (Yl M G i) (Rdn M G i) ∧ (0 < i → Adm (Yl M G i) (Rdn M G i * E2 M G i)) := by
  have key : ∀ k : ℕ, ∀ i : ℤ, 0 ≤ i → i ≤ M.n - 1 → M.n - 1 - i = k →
      Adm (Yl M G i) (Rdn M G i) ∧ (0 < i → Adm (Yl M G i) (Rdn M G i * E2 M G i)) := by
    intro k
    induction k with
    | zero =>
      intro i h0 h1 hk
      have : i = M.n - 1 := by simp at hk; omega
      subst this
      rw [Rdn_last, zero_mul]
      exact ⟨adm_zero (h.Y_re h0 (by omega)), fun _ => adm_zero (h.Y_re h0 (by omega))⟩
    | succ k ih =>
      intro i h0 h1 hk
      have hi : i < M.n - 1 := by push_cast at hk; omega
      have := (ih (i + 1) (by omega) (by omega) (by push_cast at hk; omega)).2 (by omega)
      have hc := Adm.cross (h.Y_re h0 (by omega)) (h.Y_re (i := i + 1) (by omega) (by omega)) this
      have hA : Adm (Yl M G i) (Rdn M G i) := by
        rw [Rdn_step M G hi]; exact hc.2.2.1
      refine ⟨hA, fun hpos => ?_⟩
      exact Adm.prop (h.lay i h0 (by omega)) hA
        (sub_nonneg.2 (h.ord.mono i (by omega) (by omega)))
  exact key (M.n - 1 - i).toNat i h0 h1 (by omega)

theorem Good.adm_up (h : Good M G) {i : ℤ} (h0 : 0 ≤ i) (h1 : i ≤ M.n - 1) :
    Adm (Yl M G i) (Rup M G i) ∧ (i < M.n - 1 → Adm (Yl M G i) (Rup M G i * E2 M G i)) := by
  have key : ∀ k : ℕ, ∀ i : ℤ, 0 ≤ i → i ≤ M.n - 1 → i = k →
      Adm (Yl M G i) (Rup M G i) ∧ (i < M.n - 1 → Adm (Yl M G i) (Rup M G i * E2 M G i)) := by
    intro k
    induction k with
    | zero =>
      intro i h0 h1 hk
      have : i = 0 := by simpa using hk
      subst this
      rw [Rup_first, zero_mul]
      exact ⟨adm_zero (h.Y_re h0 (by omega)), fun _ => adm_zero (h.Y_re h0 (by omega))⟩
    | succ k ih =>
      intro i h0 h1 hk
      have hi : 0 < i := by push_cast at hk; omega
      have := (ih (i - 1) (by omega) (by omega) (by push_cast at hk; omega)).2 (by omega)
      have hc := Adm.cross (h.Y_re h0 (by omega)) (h.Y_re (i := i - 1) (by omega) (by omega)) this
      have hA : Adm (Yl M G i) (Rup M G i) := by
        rw [Rup_step M G hi]; exact hc.2.2.1
      refine ⟨hA, fun hlt => ?_⟩
      exact Adm.prop (h.lay i h0 (by omega)) hA
        (sub_nonneg.2 (h.ord.mono i (by omega) (by omega)))
  exact key i.toNat i h0 h1 (by omega)

theorem Good.cross_dn (h : Good M G) {i : ℤ} (h0 : 0 ≤ i) (h1 : i < M.n - 1) :
    (1 + Rdn M G i) * (Yl M G (i + 1) * (1 - Rdn M G (i + 1) * E2 M G (i + 1))) =
    Yl M G i * (1 - Rdn M G i) * (1 + Rdn M G (i + 1) * E2 M G (i + 1)) := by
  have hc := Adm.cross (h.Y_re h0 (by omega)) (h.Y_re (i := i + 1) (by omega) (by omega))
    ((h.adm_dn (i := i + 1) (by omega) (by omega)).2 (by omega))
  have := hc.2.2.2
  rw [Rdn_step M G h1]
  exact this

theorem Good.cross_up (h : Good M G) {i : ℤ} (h0 : 0 < i) (h1 : i ≤ M.n - 1) :
    (1 + Rup M G i) * (Yl M G (i - 1) * (1 - Rup M G (i - 1) * E2 M G (i - 1))) =
    Yl M G i * (1 - Rup M G i) * (1 + Rup M G (i - 1) * E2 M G (i - 1)) := by
  have hc := Adm.cross (h.Y_re (i := i) (by omega) (by omega))
    (h.Y_re (i := i - 1) (by omega) (by omega))
    ((h.adm_up (i := i - 1) (by omega) (by omega)).2 (by omega))
  have := hc.2.2.2
  rw [Rup_step M G h0]
  exact this

theorem Good.den_dn (h : Good M G) {i : ℤ} (h0 : 0 < i) (h1 : i ≤ M.n - 1) :
    1 + Rdn M G i * E2 M G i ≠ 0 := ((h.adm_dn (by omega) h1).2 h0).one_add_ne

theorem Good.den_up (h : Good M G) {i : ℤ} (h0 : 0 ≤ i) (h1 : i < M.n - 1) :
    1 + Rup M G i * E2 M G i ≠ 0 := ((h.adm_up h0 (by omega)).2 h1).one_add_ne

/-- Denominator of the source-layer amplitudes. -/
noncomputable def p3 (M : Stack) (G : ℤ → ℂ) (s : ℤ) : ℂ := 1 - Rup M G s * Rdn M G s * E2 M G s

theorem Good.p3_ne (h : Good M G) {s : ℤ} (h0 : 0 ≤ s) (h1 : s ≤ M.n - 1) : p3 M G s ≠ 0 := by
  unfold p3
  by_cases hs : s = 0
  · subst hs; rw [Rup_first]; simp
  · have := adm_pair (h.adm_up h0 h1).1 ((h.adm_dn h0 h1).2 (by omega))
    rwa [← mul_assoc] at this

section source
variable (M G)
variable (s : ℤ) (zs : ℝ) (α β : ℂ)

noncomputable def xp : ℂ := Complex.exp (-G s * ((M.D (s + 1) - zs : ℝ) : ℂ))
noncomputable def xm : ℂ := Complex.exp (-G s * ((zs - M.D s : ℝ) : ℂ))

/-- amplitude at the top of the source layer of the downgoing wave (reflected from above) -/
noncomputable def Vs : ℂ :=
  Rup M G s * (α * xm M G s zs + Rdn M G s * (β * xp M G s zs) * E1 M G s) / p3 M G s
/-- amplitude at the bottom of the source layer of the upgoing wave (reflected from below) -/
noncomputable def Us : ℂ :=
  Rdn M G s * (β * xp M G s zs + Rup M G s * (α * xm M G s zs) * E1 M G s) / p3 M G s
/-- total downgoing amplitude at the bottom of the source layer -/
noncomputable def Kd : ℂ :=
  (β * xp M G s zs + Rup M G s * (α * xm M G s zs) * E1 M G s) / p3 M G s
/-- total upgoing amplitude at the top of the source layer -/
noncomputable def Ku : ℂ :=
  (α * xm M G s zs + Rdn M G s * (β * xp M G s zs) * E1 M G s) / p3 M G s

/-- downgoing amplitude at the top of layer `s+1+k` -/
noncomputable def Vn : ℕ → ℂ
  | 0 => Kd M G s zs α β * (1 + Rdn M G s) / (1 + Rdn M G (s + 1) * E2 M G (s + 1))
  | k + 1 => Vn k * ((1 + Rdn M G (s + 1 + k)) * E1 M G (s + 1 + k)) /
      (1 + Rdn M G (s + 1 + k + 1) * E2 M G (s + 1 + k + 1))

/-- upgoing amplitude at the bottom of layer `s-1-k` -/
noncomputable def Un : ℕ → ℂ
  | 0 => Ku M G s zs α β * (1 + Rup M G s) / (1 + Rup M G (s - 1) * E2 M G (s - 1))
  | k + 1 => Un k * ((1 + Rup M G (s - 1 - k)) * E1 M G (s - 1 - k)) /
      (1 + Rup M G (s - 1 - k - 1) * E2 M G (s - 1 - k - 1))

noncomputable def Vl (i : ℤ) : ℂ := Vn M G s zs α β (i - s - 1).toNat
noncomputable def Ul (i : ℤ) : ℂ := Un M G s zs α β (s - i - 1).toNat

/-- downgoing and upgoing parts, in layer `i`, of a wave with amplitudes `v` (at the top) and
`u` (at the bottom) -/
noncomputable def wd (i : ℤ) (v : ℂ) (z : ℝ) : ℂ := v * Complex.exp (-G i * ((z - M.D i : ℝ) : ℂ))
noncomputable def wu (i : ℤ) (u : ℂ) (z : ℝ) : ℂ :=
  u * Complex.exp (-G i * ((M.D (i + 1) - z : ℝ) : ℂ))

/-- downgoing part below the source -/
noncomputable def dnD (i : ℤ) (z : ℝ) : ℂ :=
  if i = s then β * Complex.exp (-G s * ((z - zs : ℝ) : ℂ)) + wd M G s (Vs M G s zs α β) z
  else wd M G i (Vl M G s zs α β i) z
/-- upgoing part below the source -/
noncomputable def dnU (i : ℤ) (z : ℝ) : ℂ :=
  if i = s then wu M G s (Us M G s zs α β) z
  else wu M G i (Vl M G s zs α β i * E1 M G i * Rdn M G i) z
/-- upgoing part above the source -/
noncomputable def upU (i : ℤ) (z : ℝ) : ℂ :=
  if i = s then α * Complex.exp (-G s * ((zs - z : ℝ) : ℂ)) + wu M G s (Us M G s zs α β) z
  else wu M G i (Ul M G s zs α β i) z
/-- downgoing part above the source -/
noncomputable def upD (i : ℤ) (z : ℝ) : ℂ :=
  if i = s then wd M G s (Vs M G s zs α β) z
  else wd M G i (Ul M G s zs α β i * E1 M G i * Rup M G i) z

noncomputable def dnA (i : ℤ) (z : ℝ) : ℂ := dnD M G s zs α β i z + dnU M G s zs α β i z
noncomputable def dnB (i : ℤ) (z : ℝ) : ℂ :=
  Yl M G i * (dnU M G s zs α β i z - dnD M G s zs α β i z)
noncomputable def upA (i : ℤ) (z : ℝ) : ℂ := upD M G s zs α β i z + upU M G s zs α β i z
noncomputable def upB (i : ℤ) (z : ℝ) : ℂ :=
  Yl M G i * (upU M G s zs α β i z - upD M G s zs α β i z)

theorem hasDerivAt_lin (c : ℂ) (a z : ℝ) :
    HasDerivAt (fun z : ℝ => Complex.exp (c * ((z - a : ℝ) : ℂ)))
      (c * Complex.exp (c * ((z - a : ℝ) : ℂ))) z := by
  have h1 : HasDerivAt (fun z : ℝ => ((z - a : ℝ) : ℂ)) 1 z := by
    have := ((hasDerivAt_id z).sub_const a).ofReal_comp
    simpa using this
  have := (h1.const_mul c).cexp
  refine this.congr_deriv ?_
  ring

theorem hasDerivAt_lin' (c : ℂ) (a z : ℝ) :
    HasDerivAt (fun z : ℝ => Complex.exp (c * ((a - z : ℝ) : ℂ)))
      (-c * Complex.exp (c * ((a - z : ℝ) : ℂ))) z := by
  have h1 : HasDerivAt (fun z : ℝ => ((a - z : ℝ) : ℂ)) (-1) z := by
    have := ((hasDerivAt_id z).const_sub a).ofReal_comp
    simpa using this
  have := (h1.const_mul c).cexp
  refine this.congr_deriv ?_
  ring

theorem wd_deriv (i : ℤ) (v : ℂ) (z : ℝ) :
    HasDerivAt (wd M G i v) (-G i * wd M G i v z) z := by
  have := (hasDerivAt_lin (-G i) (M.D i) z).const_mul v
  refine this.congr_deriv ?_
  unfold wd; ring

theorem wu_deriv (i : ℤ) (v : ℂ) (z : ℝ) :
    HasDerivAt (wu M G i v) (G i * wu M G i v z) z := by
  have := (hasDerivAt_lin' (-G i) (M.D (i + 1)) z).const_mul v
  refine this.congr_deriv ?_
  unfold wu; ring

theorem dnD_deriv (i : ℤ) (z : ℝ) :
    HasDerivAt (dnD M G s zs α β i) (-G i * dnD M G s zs α β i z) z := by
  by_cases h : i = s
  · subst h
    have := ((hasDerivAt_lin (-G i) zs z).const_mul β).add (wd_deriv M G i (Vs M G i zs α β) z)
    have hf : dnD M G i zs α β i = fun z => β * Complex.exp (-G i * ((z - zs : ℝ) : ℂ)) +
          wd M G i (Vs M G i zs α β) z := by funext z; simp [dnD]
    rw [hf]
    refine this.congr_deriv ?_
    ring
  · have hf : dnD M G s zs α β i = wd M G i (Vl M G s zs α β i) := by funext z; simp [dnD, h]
    rw [hf]; exact wd_deriv M G i _ z

theorem dnU_deriv (i : ℤ) (z : ℝ) :
    HasDerivAt (dnU M G s zs α β i) (G i * dnU M G s zs α β i z) z := by
  by_cases h : i = s
  · subst h
    have hf : dnU M G i zs α β i = wu M G i (Us M G i zs α β) := by funext z; simp [dnU]
    rw [hf]; exact wu_deriv M G i _ z
  · have hf : dnU M G s zs α β i = wu M G i (Vl M G s zs α β i * E1 M G i * Rdn M G i) := by
      funext z; simp [dnU, h]
    rw [hf]; exact wu_deriv M G i _ z

theorem upU_deriv (i : ℤ) (z : ℝ) :
    HasDerivAt (upU M G s zs α β i) (G i * upU M G s zs α β i z) z := by
  by_cases h : i = s
  · subst h
    have := ((hasDerivAt_lin' (-G i) zs z).const_mul α).add (wu_deriv M G i (Us M G i zs α β) z)
    have hf : upU M G i zs α β i = fun z => α * Complex.exp (-G i * ((zs - z : ℝ) : ℂ)) +
          wu M G i (Us M G i zs α β) z := by funext z; simp [upU]
    rw [hf]
    refine this.congr_deriv ?_
    ring
  · have hf : upU M G s zs α β i = wu M G i (Ul M G s zs α β i) := by funext z; simp [upU, h]
    rw [hf]; exact wu_deriv M G i _ z

theorem upD_deriv (i : ℤ) (z : ℝ) :
    HasDerivAt (upD M G s zs α β i) (-G i * upD M G s zs α β i z) z := by
  by_cases h : i = s
  · subst h
    have hf : upD M G i zs α β i = wd M G i (Vs M G i zs α β) := by funext z; simp [upD]
    rw [hf]; exact wd_deriv M G i _ z
  · have hf : upD M G s zs α β i = wd M G i (Ul M G s zs α β i * E1 M G i * Rup M G i) := by
      funext z; simp [upD, h]
    rw [hf]; exact wd_deriv M G i _ z

end source

theorem ode_of_parts {e q Γ : ℂ} (hL : LayerOK e q Γ) {d u : ℝ → ℂ} {z : ℝ}
    (hd : HasDerivAt d (-Γ * d z) z) (hu : HasDerivAt u (Γ * u z) z) :
    HasDerivAt (fun z => d z + u z) (e * (Γ / e * (u z - d z))) z ∧
    HasDerivAt (fun z => Γ / e * (u z - d z)) (q * (d z + u z)) z := by
  have he := hL.pas.e_ne
  constructor
  · refine (hd.add hu).congr_deriv ?_
    field_simp; ring
  · refine ((hu.sub hd).const_mul (Γ / e)).congr_deriv ?_
    rw [hL.q_eq]; ring

variable {s : ℤ} {zs : ℝ} {α β : ℂ}

theorem Good.dn_ode (h : Good M G) {i : ℤ} (h0 : 0 ≤ i) (h1 : i < M.n) (z : ℝ) :
    HasDerivAt (dnA M G s zs α β i) (M.e i * dnB M G s zs α β i z) z ∧
    HasDerivAt (dnB M G s zs α β i) (M.q i * dnA M G s zs α β i z) z :=
  ode_of_parts (h.lay i h0 h1) (dnD_deriv M G s zs α β i z) (dnU_deriv M G s zs α β i z)

theorem Good.up_ode (h : Good M G) {i : ℤ} (h0 : 0 ≤ i) (h1 : i < M.n) (z : ℝ) :
    HasDerivAt (upA M G s zs α β i) (M.e i * upB M G s zs α β i z) z ∧
    HasDerivAt (upB M G s zs α β i) (M.q i * upA M G s zs α β i z) z :=
  ode_of_parts (h.lay i h0 h1) (upD_deriv M G s zs α β i z) (upU_deriv M G s zs α β i z)

theorem wd_top (i : ℤ) (v : ℂ) : wd M G i v (M.D i) = v := by simp [wd]
theorem wd_bot (i : ℤ) (v : ℂ) : wd M G i v (M.D (i + 1)) = v * E1 M G i := by simp [wd, E1]
theorem wu_bot (i : ℤ) (v : ℂ) : wu M G i v (M.D (i + 1)) = v := by simp [wu]
theorem wu_top (i : ℤ) (v : ℂ) : wu M G i v (M.D i) = v * E1 M G i := by simp [wu, E1]

/-- amplitude of the downgoing wave at the bottom of layer `i ≥ s` -/
theorem Good.dn_bot (h : Good M G) {i : ℤ} (h0 : 0 ≤ s) (h1 : s ≤ M.n - 1) :
    dnU M G s zs α β i (M.D (i + 1)) = Rdn M G i * dnD M G s zs α β i (M.D (i + 1)) := by
  have hp := h.p3_ne h0 h1
  by_cases hi : i = s
  · subst hi
    simp only [dnU, dnD, if_true, wu_bot, wd_bot]
    have hx : β * Complex.exp (-G i * ((M.D (i + 1) - zs : ℝ) : ℂ)) = β * xp M G i zs := rfl
    rw [hx]
    simp only [Us, Vs]
    have hE := E1_sq M G i
    have hp3 : p3 M G i = 1 - Rup M G i * Rdn M G i * E2 M G i := rfl
    rw [← hE] at hp3
    field_simp
    rw [hp3]; ring
  · simp only [dnU, dnD, hi, if_false, wu_bot, wd_bot]; ring

theorem Good.dn_match (h : Good M G) (h0 : 0 ≤ s) {i : ℤ} (hs : s ≤ i) (hi : i + 1 ≤ M.n - 1) :
    dnA M G s zs α β i (M.D (i + 1)) = dnA M G s zs α β (i + 1) (M.D (i + 1)) ∧
    dnB M G s zs α β i (M.D (i + 1)) = dnB M G s zs α β (i + 1) (M.D (i + 1)) := by
  have hp := h.p3_ne h0 (s := s) (by omega)
  have hden := h.den_dn (i := i + 1) (by omega) (by omega)
  have hbot := h.dn_bot (i := i) (zs := zs) (α := α) (β := β) h0 (by omega)
  have hcross := h.cross_dn (i := i) (by omega) (by omega)
  -- value of V_{i+1}
  have hV : Vl M G s zs α β (i + 1) * (1 + Rdn M G (i + 1) * E2 M G (i + 1)) =
      (1 + Rdn M G i) * dnD M G s zs α β i (M.D (i + 1)) := by
    by_cases his : i = s
    · subst his
      have : (i + 1 - i - 1).toNat = 0 := by omega
      simp only [Vl, this, Vn, dnD, if_true, wd_bot]
      have hx : β * Complex.exp (-G i * ((M.D (i + 1) - zs : ℝ) : ℂ)) = β * xp M G i zs := rfl
      rw [hx]
      simp only [Kd, Vs]
      have hE := E1_sq M G i
      have hp3 : p3 M G i = 1 - Rup M G i * Rdn M G i * E2 M G i := rfl
      rw [← hE] at hp3
      field_simp
      rw [hp3]; ring
    · obtain ⟨k, hk⟩ : ∃ k : ℕ, (i - s - 1).toNat = k := ⟨_, rfl⟩
      have hk1 : (i + 1 - s - 1).toNat = k + 1 := by omega
      have hk2 : s + 1 + (k : ℤ) = i := by omega
      simp only [Vl, hk1, Vn, hk2, dnD, his, if_false, wd_bot, hk]
      field_simp
  have hne : i + 1 ≠ s := by omega
  have e1 : dnD M G s zs α β (i + 1) (M.D (i + 1)) = Vl M G s zs α β (i + 1) := by
    simp only [dnD, hne, if_false, wd_top]
  have e2 : dnU M G s zs α β (i + 1) (M.D (i + 1)) =
      Vl M G s zs α β (i + 1) * Rdn M G (i + 1) * E2 M G (i + 1) := by
    simp only [dnU, hne, if_false, wu_top]; rw [← E1_sq]; ring
  constructor
  · simp only [dnA]; rw [e1, e2, hbot]; linear_combination -hV
  · simp only [dnB]; rw [e1, e2, hbot]
    have : Vl M G s zs α β (i + 1) =
      (1 + Rdn M G i) * dnD M G s zs α β i (M.D (i + 1)) /
        (1 + Rdn M G (i + 1) * E2 M G (i + 1)) := by rw [← hV]; field_simp
    rw [this]
    field_simp
    linear_combination dnD M G s zs α β i (M.D (i + 1)) * hcross

theorem Good.up_top (h : Good M G) {i : ℤ} (h0 : 0 ≤ s) (h1 : s ≤ M.n - 1) :
    upD M G s zs α β i (M.D i) = Rup M G i * upU M G s zs α β i (M.D i) := by
  have hp := h.p3_ne h0 h1
  by_cases hi : i = s
  · subst hi
    simp only [upD, upU, if_true, wu_top, wd_top]
    have hx : α * Complex.exp (-G i * ((zs - M.D i : ℝ) : ℂ)) = α * xm M G i zs := rfl
    rw [hx]
    simp only [Us, Vs]
    have hE := E1_sq M G i
    have hp3 : p3 M G i = 1 - Rup M G i * Rdn M G i * E2 M G i := rfl
    rw [← hE] at hp3
    field_simp
    rw [hp3]; ring
  · simp only [upD, upU, hi, if_false, wu_top, wd_top]; ring

theorem Good.up_match (h : Good M G) (h1 : s ≤ M.n - 1) {i : ℤ} (h0 : 0 < i) (hs : i ≤ s) :
    upA M G s zs α β i (M.D i) = upA M G s zs α β (i - 1) (M.D i) ∧
    upB M G s zs α β i (M.D i) = upB M G s zs α β (i - 1) (M.D i) := by
  have hp := h.p3_ne (s := s) (by omega) h1
  have hden := h.den_up (i := i - 1) (by omega) (by omega)
  have hbot := h.up_top (i := i) (zs := zs) (α := α) (β := β) (s := s) (by omega) h1
  have hcross := h.cross_up (i := i) (by omega) (by omega)
  have hV : Ul M G s zs α β (i - 1) * (1 + Rup M G (i - 1) * E2 M G (i - 1)) =
      (1 + Rup M G i) * upU M G s zs α β i (M.D i) := by
    by_cases his : i = s
    · subst his
      have : (i - (i - 1) - 1).toNat = 0 := by omega
      simp only [Ul, this, Un, upU, if_true, wu_top]
      have hx : α * Complex.exp (-G i * ((zs - M.D i : ℝ) : ℂ)) = α * xm M G i zs := rfl
      rw [hx]
      simp only [Ku, Us]
      have hE := E1_sq M G i
      have hp3 : p3 M G i = 1 - Rup M G i * Rdn M G i * E2 M G i := rfl
      rw [← hE] at hp3
      field_simp
      rw [hp3]; ring
    · obtain ⟨k, hk⟩ : ∃ k : ℕ, (s - i - 1).toNat = k := ⟨_, rfl⟩
      have hk1 : (s - (i - 1) - 1).toNat = k + 1 := by omega
      have hk2 : s - 1 - (k : ℤ) = i := by omega
      simp only [Ul, hk1, Un, hk2, upU, his, if_false, wu_top, hk]
      field_simp
  have hne : i - 1 ≠ s := by omega
  have hDi : M.D i = M.D (i - 1 + 1) := by rw [sub_add_cancel]
  have e1 : upU M G s zs α β (i - 1) (M.D i) = Ul M G s zs α β (i - 1) := by
    rw [hDi]; simp only [upU, hne, if_false, wu_bot]
  have e2 : upD M G s zs α β (i - 1) (M.D i) =
      Ul M G s zs α β (i - 1) * Rup M G (i - 1) * E2 M G (i - 1) := by
    rw [hDi]; simp only [upD, hne, if_false, wd_bot]; rw [← E1_sq]; ring
  constructor
  · simp only [upA]; rw [e1, e2, hbot]; linear_combination -hV
  · simp only [upB]; rw [e1, e2, hbot]
    have : Ul M G s zs α β (i - 1) =
      (1 + Rup M G i) * upU M G s zs α β i (M.D i) /
        (1 + Rup M G (i - 1) * E2 M G (i - 1)) := by rw [← hV]; field_simp
    rw [this]
    field_simp
    linear_combination (-upU M G s zs α β i (M.D i)) * hcross

end Verif.Lemmas
