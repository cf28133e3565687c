import Verif.Lemmas.DirectSomm

/-!
# The transform of the direct field is the closed form, component by component
-/

namespace Verif.Lemmas
open Verif.Spec Verif.Kernel Verif.Transform Verif.Fullspace Verif.Lemmas.Full Verif.Props MeasureTheory Set

set_option linter.unusedSimpArgs false

/-- Contribution of a pair of amplitudes to the Hankel integrand, for a receiver without sign. -/
noncomputable def dk (ab : ℕ) (ang ρ l : ℝ) (d : ℂ × ℂ) : ℂ :=
  let J0 := besselJ0 (l * ρ)
  let J1 := besselJ1 (l * ρ)
  if ab ∈ [11, 12, 21, 22, 14, 24, 15, 25] then
    sg0 ab * (((l : ℂ) * J0 * d.1 - (l : ℂ) * J0 * d.2) / (8 * Real.pi)) +
      sg2 ab * ang * (((l : ℂ) * J0 * d.1 + (l : ℂ) * J0 * d.2) / (8 * Real.pi) -
        (J1 * d.1 + J1 * d.2) / (4 * Real.pi * ρ))
  else if ab ∈ [13, 23, 31, 32, 34, 35, 16, 26] then
    sg2 ab * ang * (((l : ℂ) ^ 2 * J1 * d.1 + (l : ℂ) ^ 2 * J1 * d.2) / (4 * Real.pi))
  else ((l : ℂ) ^ 3 * J0 * d.1 + (l : ℂ) ^ 3 * J0 * d.2) / (4 * Real.pi)

theorem dk_neg (ab : ℕ) (ang ρ l : ℝ) (d : ℂ × ℂ) : dk ab ang ρ l (-d.1, -d.2) = -dk ab ang ρ l d := by
  unfold dk; split_ifs <;> ring

theorem hk_dk {o : Ops} (ho : Safe o) (lam : ℝ) {ab : ℕ}
    (hab : ab ∈ [11, 12, 21, 22, 14, 15, 24, 25, 13, 23, 31, 32, 34, 35, 16, 26, 33]) (mr : Bool)
    (p1 p2 d1 d2 : ℂ) (ρ ang : ℝ) :
    hankelIntegrand (wn o lam ab mr (p1 + d1, p2 + d2)) ab ρ ang (besselJ0 (lam * ρ)) (besselJ1 (lam * ρ)) -
      hankelIntegrand (wn o lam ab mr (p1, p2)) ab ρ ang (besselJ0 (lam * ρ)) (besselJ1 (lam * ρ)) =
    sg mr * dk ab ang ρ lam (d1, d2) := by
  by_cases h2 : ab ∈ [11, 12, 21, 22, 14, 24, 15, 25]
  · rw [hk_two ho lam h2, dk, if_pos h2]
  · by_cases h1 : ab ∈ [13, 23, 31, 32, 34, 35, 16, 26]
    · rw [hk_one ho lam h1, dk, if_neg h2, if_pos h1]; ring
    · have h3 : ab = 33 := by
        simp only [List.mem_cons, List.not_mem_nil, or_false] at hab h1 h2; omega
      subst h3
      rw [hk_zero ho lam, dk, if_neg h2, if_neg h1]

section
variable {ab : ℕ} {ang ρ : ℝ} {d1 d2 : ℝ → ℂ} {X0 X1 Y0 Y1 : ℂ}

theorem dk_two (hab : ab ∈ [11, 12, 21, 22, 14, 24, 15, 25])
    (h1 : HasInt (fun l => (l : ℂ) * besselJ0 (l * ρ) * d1 l) X0)
    (h2 : HasInt (fun l => (l : ℂ) * besselJ0 (l * ρ) * d2 l) Y0)
    (h3 : HasInt (fun l => besselJ1 (l * ρ) * d1 l) X1)
    (h4 : HasInt (fun l => besselJ1 (l * ρ) * d2 l) Y1) :
    HasInt (fun l => dk ab ang ρ l (d1 l, d2 l))
      (sg0 ab * ((X0 - Y0) / (8 * Real.pi)) +
        sg2 ab * ang * ((X0 + Y0) / (8 * Real.pi) - (X1 + Y1) / (4 * Real.pi * ρ))) := by
  refine ((((h1.add (h2.smul (-1))).smul (sg0 ab / (8 * Real.pi)))).add
    (((h1.add h2).smul (sg2 ab * ang / (8 * Real.pi))).add
      ((h3.add h4).smul (-(sg2 ab * ang / (4 * Real.pi * ρ)))))).congr (fun l _ => ?_) ?_
  · rw [dk, if_pos hab]; simp only; ring
  · ring

theorem dk_one (hab : ab ∈ [13, 23, 31, 32, 34, 35, 16, 26])
    (h1 : HasInt (fun l => (l : ℂ) ^ 2 * besselJ1 (l * ρ) * d1 l) X0)
    (h2 : HasInt (fun l => (l : ℂ) ^ 2 * besselJ1 (l * ρ) * d2 l) Y0) :
    HasInt (fun l => dk ab ang ρ l (d1 l, d2 l)) (sg2 ab * ang * ((X0 + Y0) / (4 * Real.pi))) := by
  have h : ab ∉ [11, 12, 21, 22, 14, 24, 15, 25] := by
    simp only [List.mem_cons, List.not_mem_nil, or_false] at *; omega
  refine ((h1.add h2).smul (sg2 ab * ang / (4 * Real.pi))).congr (fun l _ => ?_) ?_
  · rw [dk, if_neg h, if_pos hab]; simp only; ring
  · ring

theorem dk_zero (h1 : HasInt (fun l => (l : ℂ) ^ 3 * besselJ0 (l * ρ) * d1 l) X0)
    (h2 : HasInt (fun l => (l : ℂ) ^ 3 * besselJ0 (l * ρ) * d2 l) Y0) :
    HasInt (fun l => dk 33 ang ρ l (d1 l, d2 l)) ((X0 + Y0) / (4 * Real.pi)) := by
  refine ((h1.add h2).smul (1 / (4 * Real.pi))).congr (fun l _ => ?_) ?_
  · rw [dk, if_neg (by decide), if_neg (by decide)]; simp only; ring
  · ring

end

theorem HasInt.zero' (f : ℝ → ℂ) : HasInt (fun l => f l * 0) 0 :=
  HasInt.zero.congr (fun _ _ => mul_zero _) rfl

section
variable {sqrt : ℂ → ℂ} {s : Roots} (a0 : s.a ≠ 0) (b0 : s.b ≠ 0) (c0 : s.c ≠ 0) (d0 : s.d ≠ 0)
  {u1 u2 : ℂ} {zs zr ρ θ : ℝ} {Γ1 Γ2 : ℝ → ℂ} (hz : zs ≠ zr) (hρ : 0 < ρ)
  (S1 : Somm ((s.a / s.b) ^ 2) (s.a * s.c)
    (Rf sqrt s.kTM (ρ * Real.cos θ) (ρ * Real.sin θ) (zr - zs) * (s.b / s.a)) u1 |zs - zr| ρ Γ1)
  (S2 : Somm ((s.c / s.d) ^ 2) (s.c * s.a)
    (Rf sqrt s.kTE (ρ * Real.cos θ) (ρ * Real.sin θ) (zr - zs) * (s.d / s.c)) u2 |zs - zr| ρ Γ2)
include a0 b0 c0 d0 hz hρ S1 S2

theorem direct_ee {A B : ℕ} (hA : 1 ≤ A ∧ A ≤ 3) (hB : 1 ≤ B ∧ B ≤ 3) :
    HasInt (fun l => dk (10 * A + B) (exactFactor θ (10 * A + B) false false) ρ l
        (dirP (s.a ^ 2) (s.b ^ 2) (s.c ^ 2) (s.d ^ 2) (Γ1 l) (Γ2 l) (10 * A + B) zs zr))
      (entry sqrt s A B (ρ * Real.cos θ) (ρ * Real.sin θ) (zr - zs)) := by
  have n1 := S1.R0
  have n2 := S2.R0
  have q1 := S1.hR
  have q2 := S2.hR
  have hzz : ((|zs - zr| : ℝ) : ℂ) ^ 2 = ((zr - zs : ℝ) : ℂ) ^ 2 := by
    rw [← Complex.ofReal_pow, ← Complex.ofReal_pow, sq_abs]; congr 1; ring
  have hsn : (((zr - zs).sign : ℝ) : ℂ) * ((|zs - zr| : ℝ) : ℂ) = ((zr - zs : ℝ) : ℂ) := by
    rw [← Complex.ofReal_mul, abs_sub_comm]
    congr 1
    rcases lt_trichotomy (zr - zs) 0 with h | h | h
    · rw [Real.sign_of_neg h, abs_of_neg h]; ring
    · rw [h]; simp
    · rw [Real.sign_of_pos h, abs_of_pos h]; ring
  have hcs : ((Real.cos θ : ℝ) : ℂ) ^ 2 + ((Real.sin θ : ℝ) : ℂ) ^ 2 = 1 := by
    rw [add_comm]; exact_mod_cast Real.sin_sq_add_cos_sq θ
  have hc2 : ((Real.cos (θ * 2) : ℝ) : ℂ) = 2 * ((Real.cos θ : ℝ) : ℂ) ^ 2 - 1 := by
    rw [mul_comm, Real.cos_two_mul]; push_cast; ring
  have hs2 : ((Real.sin (θ * 2) : ℝ) : ℂ) = 2 * ((Real.sin θ : ℝ) : ℂ) * ((Real.cos θ : ℝ) : ℂ) := by
    rw [mul_comm, Real.sin_two_mul]; push_cast; ring
  have hpi : (Real.pi : ℂ) ≠ 0 := by exact_mod_cast Real.pi_ne_zero
  have hρc : (ρ : ℂ) ≠ 0 := by exact_mod_cast hρ.ne'
  have hoo : oo (ρ * Real.cos θ) (ρ * Real.sin θ) = (ρ : ℂ) ^ 2 := by
    rw [oo]; push_cast
    push_cast at hcs
    linear_combination (ρ : ℂ) ^ 2 * hcs
  -- exponentials
  have e1 : Complex.exp (-(s.a * s.c * (Rf sqrt s.kTM (ρ * Real.cos θ) (ρ * Real.sin θ) (zr - zs) * (s.b / s.a)))) =
      e s.gTM (Rf sqrt s.kTM (ρ * Real.cos θ) (ρ * Real.sin θ) (zr - zs)) := by
    rw [e, Roots.gTM]; congr 1; field_simp
  have e2 : Complex.exp (-(s.c * s.a * (Rf sqrt s.kTE (ρ * Real.cos θ) (ρ * Real.sin θ) (zr - zs) * (s.d / s.c)))) =
      e s.gTE (Rf sqrt s.kTE (ρ * Real.cos θ) (ρ * Real.sin θ) (zr - zs)) := by
    rw [e, Roots.gTE]; congr 1; field_simp
  have A2 := S1.A2
  have B2 := S1.B2
  have A0 := S2.A0
  have B0 := S2.B0
  have C1 := S1.C1
  have A3 := S1.A3
  rw [e1] at A2 B2 C1 A3
  rw [e2] at A0 B0
  rw [mul_comm s.c s.a] at B0
  rw [hzz] at A2 B2 A3 q1 q2
  have r1 : ((zr - zs : ℝ) : ℂ) ^ 2 = (Rf sqrt s.kTM (ρ * Real.cos θ) (ρ * Real.sin θ) (zr - zs) ^ 2 - (ρ : ℂ) ^ 2) *
      (s.b / s.a) ^ 2 := by
    have : (ρ : ℂ) ^ 2 / (s.a / s.b) ^ 2 = (ρ : ℂ) ^ 2 * (s.b / s.a) ^ 2 := by field_simp
    linear_combination -this - q1
  rw [r1] at A2 B2 A3
  have hx : ((ρ * Real.cos θ : ℝ) : ℂ) = ρ * ((Real.cos θ : ℝ) : ℂ) := by push_cast; ring
  have hy : ((ρ * Real.sin θ : ℝ) : ℂ) = ρ * ((Real.sin θ : ℝ) : ℂ) := by push_cast; ring
  have m1 : Rf sqrt s.kTM (ρ * Real.cos θ) (ρ * Real.sin θ) (zr - zs) ≠ 0 := left_ne_zero_of_mul n1
  have m2 : Rf sqrt s.kTE (ρ * Real.cos θ) (ρ * Real.sin θ) (zr - zs) ≠ 0 := left_ne_zero_of_mul n2
  obtain ⟨hA1, hA2⟩ := hA
  obtain ⟨hB1, hB2⟩ := hB
  have two : ∀ ab ∈ [11, 12, 21, 22], ∀ ang : ℝ, _ := fun ab hab ang =>
    dk_two (ab := ab) (ang := ang) (ρ := ρ) (by simp only [List.mem_cons, List.not_mem_nil, or_false] at *; omega)
      ((A2.smul (-(1 / s.a ^ 2))).congr (fun l _ => mul_left_comm _ _ _) rfl)
      ((A0.smul (s.c ^ 2)).congr (fun l _ => mul_left_comm _ _ _) rfl)
      ((B2.smul (-(1 / s.a ^ 2))).congr (fun l _ => mul_left_comm _ _ _) rfl)
      ((B0.smul (s.c ^ 2)).congr (fun l _ => mul_left_comm _ _ _) rfl)
  have one : ∀ ab ∈ [13, 23, 31, 32], ∀ ang : ℝ, _ := fun ab hab ang =>
    dk_one (ab := ab) (ang := ang) (ρ := ρ) (by simp only [List.mem_cons, List.not_mem_nil, or_false] at *; omega)
      ((C1.smul (((zr - zs).sign : ℝ) / s.b ^ 2)).congr (fun l _ => mul_left_comm _ _ _) rfl)
      (HasInt.zero' (fun l => (l : ℂ) ^ 2 * besselJ1 (l * ρ)))
  have zero : ∀ ang : ℝ, _ := fun ang =>
    dk_zero (ang := ang) (ρ := ρ) ((A3.smul (s.a ^ 2 / s.b ^ 2 / s.b ^ 2)).congr (fun l _ => mul_left_comm _ _ _) rfl)
      (HasInt.zero' (fun l => (l : ℂ) ^ 3 * besselJ0 (l * ρ)))
  have hc2' : ((Real.cos (θ * 2) : ℝ) : ℂ) = 1 - 2 * ((Real.sin θ : ℝ) : ℂ) ^ 2 := by
    rw [hc2]; linear_combination 2 * hcs
  interval_cases A <;> interval_cases B
  · refine (two 11 (by decide) _).congr (fun l _ => rfl) ?_
    simp only [entry, colE, Vec.comb, Vec.smul, tmE, teE, vE, al, be, al', be', ch, nn, hoo, hx, hy, sg0, sg2,
      exactFactor, pre]
    generalize Rf sqrt s.kTM (ρ * Real.cos θ) (ρ * Real.sin θ) (zr - zs) = R1 at *
    generalize Rf sqrt s.kTE (ρ * Real.cos θ) (ρ * Real.sin θ) (zr - zs) = R2 at *
    generalize e s.gTM R1 = E1 at *
    generalize e s.gTE R2 = E2 at *
    simp [hc2]
    generalize Complex.exp (-(s.a * s.c * (|zs - zr| : ℝ))) = Ez at *
    simp only [Roots.gTM, Roots.gTE, Roots.g0, Roots.kTM, Roots.kTE]
    field_simp
    ring
  · refine (two 12 (by decide) _).congr (fun l _ => rfl) ?_
    simp only [entry, colE, Vec.comb, Vec.smul, tmE, teE, vE, al, be, al', be', ch, nn, hoo, hx, hy, sg0, sg2,
      exactFactor, pre]
    generalize Rf sqrt s.kTM (ρ * Real.cos θ) (ρ * Real.sin θ) (zr - zs) = R1 at *
    generalize Rf sqrt s.kTE (ρ * Real.cos θ) (ρ * Real.sin θ) (zr - zs) = R2 at *
    generalize e s.gTM R1 = E1 at *
    generalize e s.gTE R2 = E2 at *
    simp [hs2]
    generalize Complex.exp (-(s.a * s.c * (|zs - zr| : ℝ))) = Ez at *
    simp only [Roots.gTM, Roots.gTE, Roots.g0, Roots.kTM, Roots.kTE]
    field_simp
    ring
  · refine (one 13 (by decide) _).congr (fun l _ => rfl) ?_
    simp only [entry, colE, Vec.smul, tmE, vE, Vec.comb, teE, ch, hx, hy, sg2, exactFactor, pre, ← hsn]
    generalize Rf sqrt s.kTM (ρ * Real.cos θ) (ρ * Real.sin θ) (zr - zs) = R1 at *
    generalize e s.gTM R1 = E1 at *
    generalize ((|zs - zr| : ℝ) : ℂ) = Z at *
    generalize (((zr - zs).sign : ℝ) : ℂ) = sn at *
    simp
    simp only [Roots.gTM, Roots.g0, Roots.kTM]
    field_simp
    try ring
  · refine (two 21 (by decide) _).congr (fun l _ => rfl) ?_
    simp only [entry, colE, Vec.comb, Vec.smul, tmE, teE, vE, al, be, al', be', ch, nn, hoo, hx, hy, sg0, sg2,
      exactFactor, pre]
    generalize Rf sqrt s.kTM (ρ * Real.cos θ) (ρ * Real.sin θ) (zr - zs) = R1 at *
    generalize Rf sqrt s.kTE (ρ * Real.cos θ) (ρ * Real.sin θ) (zr - zs) = R2 at *
    generalize e s.gTM R1 = E1 at *
    generalize e s.gTE R2 = E2 at *
    simp [hs2]
    generalize Complex.exp (-(s.a * s.c * (|zs - zr| : ℝ))) = Ez at *
    simp only [Roots.gTM, Roots.gTE, Roots.g0, Roots.kTM, Roots.kTE]
    field_simp
    ring
  · refine (two 22 (by decide) _).congr (fun l _ => rfl) ?_
    simp only [entry, colE, Vec.comb, Vec.smul, tmE, teE, vE, al, be, al', be', ch, nn, hoo, hx, hy, sg0, sg2,
      exactFactor, pre]
    generalize Rf sqrt s.kTM (ρ * Real.cos θ) (ρ * Real.sin θ) (zr - zs) = R1 at *
    generalize Rf sqrt s.kTE (ρ * Real.cos θ) (ρ * Real.sin θ) (zr - zs) = R2 at *
    generalize e s.gTM R1 = E1 at *
    generalize e s.gTE R2 = E2 at *
    simp [hc2']
    generalize Complex.exp (-(s.a * s.c * (|zs - zr| : ℝ))) = Ez at *
    simp only [Roots.gTM, Roots.gTE, Roots.g0, Roots.kTM, Roots.kTE]
    field_simp
    ring
  · refine (one 23 (by decide) _).congr (fun l _ => rfl) ?_
    simp only [entry, colE, Vec.smul, tmE, vE, Vec.comb, teE, ch, hx, hy, sg2, exactFactor, pre, ← hsn]
    generalize Rf sqrt s.kTM (ρ * Real.cos θ) (ρ * Real.sin θ) (zr - zs) = R1 at *
    generalize e s.gTM R1 = E1 at *
    generalize ((|zs - zr| : ℝ) : ℂ) = Z at *
    generalize (((zr - zs).sign : ℝ) : ℂ) = sn at *
    simp
    simp only [Roots.gTM, Roots.g0, Roots.kTM]
    field_simp
    try ring
  · refine (one 31 (by decide) _).congr (fun l _ => rfl) ?_
    simp only [entry, colE, Vec.smul, tmE, vE, Vec.comb, teE, ch, hx, hy, sg2, exactFactor, pre, ← hsn]
    generalize Rf sqrt s.kTM (ρ * Real.cos θ) (ρ * Real.sin θ) (zr - zs) = R1 at *
    generalize e s.gTM R1 = E1 at *
    generalize ((|zs - zr| : ℝ) : ℂ) = Z at *
    generalize (((zr - zs).sign : ℝ) : ℂ) = sn at *
    simp
    simp only [Roots.gTM, Roots.g0, Roots.kTM]
    field_simp
    try ring
  · refine (one 32 (by decide) _).congr (fun l _ => rfl) ?_
    simp only [entry, colE, Vec.smul, tmE, vE, Vec.comb, teE, ch, hx, hy, sg2, exactFactor, pre, ← hsn]
    generalize Rf sqrt s.kTM (ρ * Real.cos θ) (ρ * Real.sin θ) (zr - zs) = R1 at *
    generalize e s.gTM R1 = E1 at *
    generalize ((|zs - zr| : ℝ) : ℂ) = Z at *
    generalize (((zr - zs).sign : ℝ) : ℂ) = sn at *
    simp
    simp only [Roots.gTM, Roots.g0, Roots.kTM]
    field_simp
    try ring
  · refine (zero _).congr (fun l _ => rfl) ?_
    simp only [entry, colE, Vec.smul, vE, ch, nn, pre, r1]
    generalize Rf sqrt s.kTM (ρ * Real.cos θ) (ρ * Real.sin θ) (zr - zs) = R1 at *
    generalize e s.gTM R1 = E1 at *
    simp
    simp only [Roots.gTM, Roots.g0, Roots.kTM]
    field_simp
    ring

theorem direct_em {A B : ℕ} (hA : 1 ≤ A ∧ A ≤ 3) (hB : 4 ≤ B ∧ B ≤ 6) (h36 : ¬(A = 3 ∧ B = 6)) :
    HasInt (fun l => dk (10 * A + B) (exactFactor θ (10 * A + B) true false) ρ l
        (dirP (s.a ^ 2) (s.b ^ 2) (s.c ^ 2) (s.d ^ 2) (Γ1 l) (Γ2 l) (10 * A + B) zs zr))
      (entry sqrt s A B (ρ * Real.cos θ) (ρ * Real.sin θ) (zr - zs)) := by
  have n1 := S1.R0
  have n2 := S2.R0
  have q1 := S1.hR
  have q2 := S2.hR
  have hzz : ((|zs - zr| : ℝ) : ℂ) ^ 2 = ((zr - zs : ℝ) : ℂ) ^ 2 := by
    rw [← Complex.ofReal_pow, ← Complex.ofReal_pow, sq_abs]; congr 1; ring
  have hsn : (((zr - zs).sign : ℝ) : ℂ) * ((|zs - zr| : ℝ) : ℂ) = ((zr - zs : ℝ) : ℂ) := by
    rw [← Complex.ofReal_mul, abs_sub_comm]
    congr 1
    rcases lt_trichotomy (zr - zs) 0 with h | h | h
    · rw [Real.sign_of_neg h, abs_of_neg h]; ring
    · rw [h]; simp
    · rw [Real.sign_of_pos h, abs_of_pos h]; ring
  have hcs : ((Real.cos θ : ℝ) : ℂ) ^ 2 + ((Real.sin θ : ℝ) : ℂ) ^ 2 = 1 := by
    rw [add_comm]; exact_mod_cast Real.sin_sq_add_cos_sq θ
  have hc2 : ((Real.cos (θ * 2) : ℝ) : ℂ) = 2 * ((Real.cos θ : ℝ) : ℂ) ^ 2 - 1 := by
    rw [mul_comm, Real.cos_two_mul]; push_cast; ring
  have hs2 : ((Real.sin (θ * 2) : ℝ) : ℂ) = 2 * ((Real.sin θ : ℝ) : ℂ) * ((Real.cos θ : ℝ) : ℂ) := by
    rw [mul_comm, Real.sin_two_mul]; push_cast; ring
  have hpi : (Real.pi : ℂ) ≠ 0 := by exact_mod_cast Real.pi_ne_zero
  have hρc : (ρ : ℂ) ≠ 0 := by exact_mod_cast hρ.ne'
  have hoo : oo (ρ * Real.cos θ) (ρ * Real.sin θ) = (ρ : ℂ) ^ 2 := by
    rw [oo]; push_cast
    push_cast at hcs
    linear_combination (ρ : ℂ) ^ 2 * hcs
  -- exponentials
  have e1 : Complex.exp (-(s.a * s.c * (Rf sqrt s.kTM (ρ * Real.cos θ) (ρ * Real.sin θ) (zr - zs) * (s.b / s.a)))) =
      e s.gTM (Rf sqrt s.kTM (ρ * Real.cos θ) (ρ * Real.sin θ) (zr - zs)) := by
    rw [e, Roots.gTM]; congr 1; field_simp
  have e2 : Complex.exp (-(s.c * s.a * (Rf sqrt s.kTE (ρ * Real.cos θ) (ρ * Real.sin θ) (zr - zs) * (s.d / s.c)))) =
      e s.gTE (Rf sqrt s.kTE (ρ * Real.cos θ) (ρ * Real.sin θ) (zr - zs)) := by
    rw [e, Roots.gTE]; congr 1; field_simp
  have A1 := S1.A1
  have B1 := S1.B1
  have A1' := S2.A1
  have B1' := S2.B1
  have C0 := S1.C0
  have C0' := S2.C0
  rw [e1] at A1 B1 C0
  rw [e2] at A1' B1' C0'
  rw [mul_comm s.c s.a] at B1'
  have hx : ((ρ * Real.cos θ : ℝ) : ℂ) = ρ * ((Real.cos θ : ℝ) : ℂ) := by push_cast; ring
  have hy : ((ρ * Real.sin θ : ℝ) : ℂ) = ρ * ((Real.sin θ : ℝ) : ℂ) := by push_cast; ring
  have m1 : Rf sqrt s.kTM (ρ * Real.cos θ) (ρ * Real.sin θ) (zr - zs) ≠ 0 := left_ne_zero_of_mul n1
  have m2 : Rf sqrt s.kTE (ρ * Real.cos θ) (ρ * Real.sin θ) (zr - zs) ≠ 0 := left_ne_zero_of_mul n2
  have hc2' : ((Real.cos (θ * 2) : ℝ) : ℂ) = 1 - 2 * ((Real.sin θ : ℝ) : ℂ) ^ 2 := by
    rw [hc2]; linear_combination 2 * hcs
  obtain ⟨hA1, hA2⟩ := hA
  obtain ⟨hB1, hB2⟩ := hB
  have two : ∀ ab ∈ [14, 15, 24, 25], ∀ ang : ℝ, _ := fun ab hab ang =>
    dk_two (ab := ab) (ang := ang) (ρ := ρ) (by simp only [List.mem_cons, List.not_mem_nil, or_false] at *; omega)
      ((A1.smul (-((zr - zs).sign : ℝ))).congr (fun l _ => mul_left_comm _ _ _) rfl)
      ((A1'.smul ((zr - zs).sign : ℝ)).congr (fun l _ => mul_left_comm _ _ _) rfl)
      ((B1.smul (-((zr - zs).sign : ℝ))).congr (fun l _ => mul_left_comm _ _ _) rfl)
      ((B1'.smul ((zr - zs).sign : ℝ)).congr (fun l _ => mul_left_comm _ _ _) rfl)
  have oneM : ∀ ab ∈ [34, 35], ∀ ang : ℝ, _ := fun ab hab ang =>
    dk_one (ab := ab) (ang := ang) (ρ := ρ) (by simp only [List.mem_cons, List.not_mem_nil, or_false] at *; omega)
      ((C0.smul (s.a ^ 2 / s.b ^ 2)).congr (fun l _ => mul_left_comm _ _ _) rfl)
      (HasInt.zero' (fun l => (l : ℂ) ^ 2 * besselJ1 (l * ρ)))
  have oneE : ∀ ab ∈ [16, 26], ∀ ang : ℝ, _ := fun ab hab ang =>
    dk_one (ab := ab) (ang := ang) (ρ := ρ) (by simp only [List.mem_cons, List.not_mem_nil, or_false] at *; omega)
      (HasInt.zero' (fun l => (l : ℂ) ^ 2 * besselJ1 (l * ρ)))
      ((C0'.smul (s.c ^ 2 / s.d ^ 2)).congr (fun l _ => mul_left_comm _ _ _) rfl)
  interval_cases A <;> interval_cases B
  · refine (two 14 (by decide) _).congr (fun l _ => rfl) ?_
    simp only [entry, colE, Vec.comb, Vec.smul, tmH, teH, vH, Full.h, m, k, hoo, hx, hy, sg0, sg2,
      exactFactor, pre, ← hsn]
    generalize Rf sqrt s.kTM (ρ * Real.cos θ) (ρ * Real.sin θ) (zr - zs) = R1 at *
    generalize Rf sqrt s.kTE (ρ * Real.cos θ) (ρ * Real.sin θ) (zr - zs) = R2 at *
    generalize e s.gTM R1 = E1 at *
    generalize e s.gTE R2 = E2 at *
    simp [hs2]
    generalize ((|zs - zr| : ℝ) : ℂ) = Z at *
    generalize (((zr - zs).sign : ℝ) : ℂ) = sn at *
    generalize Complex.exp (-(s.a * s.c * Z)) = Ez at *
    simp only [Roots.gTM, Roots.gTE, Roots.g0, Roots.kTM, Roots.kTE]
    field_simp
    try ring
  · refine (two 15 (by decide) _).congr (fun l _ => rfl) ?_
    simp only [entry, colE, Vec.comb, Vec.smul, tmH, teH, vH, Full.h, m, k, hoo, hx, hy, sg0, sg2,
      exactFactor, pre, ← hsn]
    generalize Rf sqrt s.kTM (ρ * Real.cos θ) (ρ * Real.sin θ) (zr - zs) = R1 at *
    generalize Rf sqrt s.kTE (ρ * Real.cos θ) (ρ * Real.sin θ) (zr - zs) = R2 at *
    generalize e s.gTM R1 = E1 at *
    generalize e s.gTE R2 = E2 at *
    simp [hc2']
    generalize ((|zs - zr| : ℝ) : ℂ) = Z at *
    generalize (((zr - zs).sign : ℝ) : ℂ) = sn at *
    generalize Complex.exp (-(s.a * s.c * Z)) = Ez at *
    simp only [Roots.gTM, Roots.gTE, Roots.g0, Roots.kTM, Roots.kTE]
    field_simp
    ring_nf
    simp only [Complex.sin_sq]
    ring
  · refine (oneE 16 (by decide) _).congr (fun l _ => rfl) ?_
    simp only [entry, colE, Vec.comb, Vec.smul, tmH, teH, vH, Full.h, m, k, hoo, hx, hy, sg0, sg2,
      exactFactor, pre, ← hsn]
    generalize Rf sqrt s.kTM (ρ * Real.cos θ) (ρ * Real.sin θ) (zr - zs) = R1 at *
    generalize Rf sqrt s.kTE (ρ * Real.cos θ) (ρ * Real.sin θ) (zr - zs) = R2 at *
    generalize e s.gTM R1 = E1 at *
    generalize e s.gTE R2 = E2 at *
    simp []
    generalize ((|zs - zr| : ℝ) : ℂ) = Z at *
    generalize (((zr - zs).sign : ℝ) : ℂ) = sn at *
    generalize Complex.exp (-(s.a * s.c * Z)) = Ez at *
    simp only [Roots.gTM, Roots.gTE, Roots.g0, Roots.kTM, Roots.kTE]
    field_simp
    try ring
  · refine (two 24 (by decide) _).congr (fun l _ => rfl) ?_
    simp only [entry, colE, Vec.comb, Vec.smul, tmH, teH, vH, Full.h, m, k, hoo, hx, hy, sg0, sg2,
      exactFactor, pre, ← hsn]
    generalize Rf sqrt s.kTM (ρ * Real.cos θ) (ρ * Real.sin θ) (zr - zs) = R1 at *
    generalize Rf sqrt s.kTE (ρ * Real.cos θ) (ρ * Real.sin θ) (zr - zs) = R2 at *
    generalize e s.gTM R1 = E1 at *
    generalize e s.gTE R2 = E2 at *
    simp [hc2]
    generalize ((|zs - zr| : ℝ) : ℂ) = Z at *
    generalize (((zr - zs).sign : ℝ) : ℂ) = sn at *
    generalize Complex.exp (-(s.a * s.c * Z)) = Ez at *
    simp only [Roots.gTM, Roots.gTE, Roots.g0, Roots.kTM, Roots.kTE]
    field_simp
    ring_nf
    simp only [Complex.sin_sq]
    ring
  · refine (two 25 (by decide) _).congr (fun l _ => rfl) ?_
    simp only [entry, colE, Vec.comb, Vec.smul, tmH, teH, vH, Full.h, m, k, hoo, hx, hy, sg0, sg2,
      exactFactor, pre, ← hsn]
    generalize Rf sqrt s.kTM (ρ * Real.cos θ) (ρ * Real.sin θ) (zr - zs) = R1 at *
    generalize Rf sqrt s.kTE (ρ * Real.cos θ) (ρ * Real.sin θ) (zr - zs) = R2 at *
    generalize e s.gTM R1 = E1 at *
    generalize e s.gTE R2 = E2 at *
    simp [hs2]
    generalize ((|zs - zr| : ℝ) : ℂ) = Z at *
    generalize (((zr - zs).sign : ℝ) : ℂ) = sn at *
    generalize Complex.exp (-(s.a * s.c * Z)) = Ez at *
    simp only [Roots.gTM, Roots.gTE, Roots.g0, Roots.kTM, Roots.kTE]
    field_simp
    try ring
  · refine (oneE 26 (by decide) _).congr (fun l _ => rfl) ?_
    simp only [entry, colE, Vec.comb, Vec.smul, tmH, teH, vH, Full.h, m, k, hoo, hx, hy, sg0, sg2,
      exactFactor, pre, ← hsn]
    generalize Rf sqrt s.kTM (ρ * Real.cos θ) (ρ * Real.sin θ) (zr - zs) = R1 at *
    generalize Rf sqrt s.kTE (ρ * Real.cos θ) (ρ * Real.sin θ) (zr - zs) = R2 at *
    generalize e s.gTM R1 = E1 at *
    generalize e s.gTE R2 = E2 at *
    simp []
    generalize ((|zs - zr| : ℝ) : ℂ) = Z at *
    generalize (((zr - zs).sign : ℝ) : ℂ) = sn at *
    generalize Complex.exp (-(s.a * s.c * Z)) = Ez at *
    simp only [Roots.gTM, Roots.gTE, Roots.g0, Roots.kTM, Roots.kTE]
    field_simp
    try ring
  · refine (oneM 34 (by decide) _).congr (fun l _ => rfl) ?_
    simp only [entry, colE, Vec.comb, Vec.smul, tmH, teH, vH, Full.h, m, k, hoo, hx, hy, sg0, sg2,
      exactFactor, pre, ← hsn]
    generalize Rf sqrt s.kTM (ρ * Real.cos θ) (ρ * Real.sin θ) (zr - zs) = R1 at *
    generalize Rf sqrt s.kTE (ρ * Real.cos θ) (ρ * Real.sin θ) (zr - zs) = R2 at *
    generalize e s.gTM R1 = E1 at *
    generalize e s.gTE R2 = E2 at *
    simp []
    generalize ((|zs - zr| : ℝ) : ℂ) = Z at *
    generalize (((zr - zs).sign : ℝ) : ℂ) = sn at *
    generalize Complex.exp (-(s.a * s.c * Z)) = Ez at *
    simp only [Roots.gTM, Roots.gTE, Roots.g0, Roots.kTM, Roots.kTE]
    field_simp
    try ring
  · refine (oneM 35 (by decide) _).congr (fun l _ => rfl) ?_
    simp only [entry, colE, Vec.comb, Vec.smul, tmH, teH, vH, Full.h, m, k, hoo, hx, hy, sg0, sg2,
      exactFactor, pre, ← hsn]
    generalize Rf sqrt s.kTM (ρ * Real.cos θ) (ρ * Real.sin θ) (zr - zs) = R1 at *
    generalize Rf sqrt s.kTE (ρ * Real.cos θ) (ρ * Real.sin θ) (zr - zs) = R2 at *
    generalize e s.gTM R1 = E1 at *
    generalize e s.gTE R2 = E2 at *
    simp []
    generalize ((|zs - zr| : ℝ) : ℂ) = Z at *
    generalize (((zr - zs).sign : ℝ) : ℂ) = sn at *
    generalize Complex.exp (-(s.a * s.c * Z)) = Ez at *
    simp only [Roots.gTM, Roots.gTE, Roots.g0, Roots.kTM, Roots.kTE]
    field_simp
    try ring
  · exact absurd ⟨rfl, rfl⟩ h36
end

end Verif.Lemmas
