import Verif.Props.C08_Methods
import Verif.Props.C36_Fullspace
import Verif.Props.C57_Coincident

/-!
# C58: reflections and quarter turns in the horizontal plane, from the arguments

A layered medium looks the same in every horizontal direction.  `dipole` is called with the coordinates of all sources and
receivers reflected at the vertical plane `y = 0`, with the two horizontal axes exchanged, or turned by 90°.
-/

namespace Verif.Props
open Verif.Spec Verif.Py Verif.Py.W Verif.Utils Verif.Model Verif.Kernel Verif.Transform Verif.Fullspace
  Verif.Lemmas MeasureTheory Set

/-! ## Specification -/

/-- Reflection at the plane `y = 0`: vectors for the electric field, axial vectors for the magnetic field. -/
def sideSign (a : ℕ) : ℂ := if a = 2 ∨ a = 4 ∨ a = 6 then -1 else 1

/-- Reflection at the plane `x = y`: the direction becomes … -/
def swapDir (a : ℕ) : ℕ := if a = 1 then 2 else if a = 2 then 1 else if a = 4 then 5 else if a = 5 then 4 else a

/-- … with this sign (axial vectors for the magnetic field). -/
def swapSign (a : ℕ) : ℂ := if 4 ≤ a then -1 else 1

/-- A quarter turn takes `x` to `y` and `y` to `-x`, electric and magnetic alike. -/
def turnSign (a : ℕ) : ℂ := if a = 2 ∨ a = 5 then -1 else 1

theorem side_pm (a b : ℕ) : sideSign a * sideSign b = 1 ∨ sideSign a * sideSign b = -1 := by
  unfold sideSign; split_ifs <;> simp

theorem swap_pm (a b : ℕ) : swapSign a * swapSign b = 1 ∨ swapSign a * swapSign b = -1 := by
  unfold swapSign; split_ifs <;> simp

theorem swap_range {a : ℕ} (h : 1 ≤ a ∧ a ≤ 6) : 1 ≤ swapDir a ∧ swapDir a ≤ 6 := by
  unfold swapDir; split_ifs <;> omega

/-- The quarter turn is one reflection after the other. -/
theorem turn_two {a : ℕ} (h : 1 ≤ a ∧ a ≤ 6) : turnSign a = swapSign a * sideSign a := by
  obtain ⟨h1, h2⟩ := h
  interval_cases a <;> simp [turnSign, swapSign, sideSign]

/-! ## Azimuths -/

theorem theta_side (dx dy : ℝ) : ∃ k : ℤ, thetaOf dx (-dy) = -thetaOf dx dy + k * (2 * Real.pi) := by
  have e : (⟨dx, -dy⟩ : ℂ) = (starRingEnd ℂ) ⟨dx, dy⟩ := rfl
  rw [thetaOf, thetaOf, e, Complex.arg_conj]
  split_ifs with h
  · exact ⟨1, by rw [h]; push_cast; ring⟩
  · exact ⟨0, by simp⟩

theorem theta_swap {dx dy : ℝ} (h : dx ≠ 0 ∨ dy ≠ 0) :
    ∃ k : ℤ, thetaOf dy dx = Real.pi / 2 - thetaOf dx dy + k * (2 * Real.pi) := by
  have hp : 0 < Real.sqrt (dx ^ 2 + dy ^ 2) := by
    apply Real.sqrt_pos.2
    rcases h with h | h
    · have := pow_pos (abs_pos.2 h) 2
      rw [sq_abs] at this
      positivity
    · have := pow_pos (abs_pos.2 h) 2
      rw [sq_abs] at this
      positivity
  obtain ⟨c1, s1⟩ := xy_polar dx dy
  obtain ⟨c2, s2⟩ := xy_polar dy dx
  rw [add_comm (dy ^ 2)] at c2 s2
  have hc : Real.cos (Complex.arg ⟨dy, dx⟩) = Real.sin (Complex.arg ⟨dx, dy⟩) :=
    mul_right_cancel₀ hp.ne' (c2.trans s1.symm)
  have hs : Real.sin (Complex.arg ⟨dy, dx⟩) = Real.cos (Complex.arg ⟨dx, dy⟩) :=
    mul_right_cancel₀ hp.ne' (s2.trans c1.symm)
  have := Real.Angle.cos_sin_inj (θ := Complex.arg ⟨dy, dx⟩) (ψ := Real.pi / 2 - Complex.arg ⟨dx, dy⟩)
    (by rw [hc, Real.cos_pi_div_two_sub]) (by rw [hs, Real.sin_pi_div_two_sub])
  rw [Real.Angle.angle_eq_iff_two_pi_dvd_sub] at this
  obtain ⟨k, hk⟩ := this
  exact ⟨k, by rw [thetaOf, thetaOf]; linarith⟩

theorem clear_neg {θ : ℝ} (h : ClearAngle θ) : ClearAngle (-θ) := by
  intro k
  rcases h (-k) with h | h
  · left; rw [h]; push_cast; ring
  · right
    rw [show -θ - k * (Real.pi / 4) = -(θ - ((-k : ℤ) : ℝ) * (Real.pi / 4)) by push_cast; ring, abs_neg]
    exact h

theorem exact_neg (θ : ℝ) (c : ℕ) (ms mr : Bool) : exactFactor (-θ) c ms mr =
    (if c ∈ [33, 11, 22, 15, 24, 13, 31, 26, 35] then 1 else -1) * exactFactor θ c ms mr := by
  have c1 : Real.cos (-θ + Real.pi) = Real.cos (θ + Real.pi) := by simp [Real.cos_add_pi]
  have s1 : Real.sin (-θ + Real.pi) = -Real.sin (θ + Real.pi) := by simp [Real.sin_add_pi]
  have c2 : Real.cos ((-θ + Real.pi) * 2) = Real.cos ((θ + Real.pi) * 2) := by
    rw [mul_comm, mul_comm _ (2 : ℝ), Real.cos_two_mul, Real.cos_two_mul, c1]
  have s2 : Real.sin ((-θ + Real.pi) * 2) = -Real.sin ((θ + Real.pi) * 2) := by
    rw [mul_comm, mul_comm _ (2 : ℝ), Real.sin_two_mul, Real.sin_two_mul, c1, s1]; ring
  unfold exactFactor
  by_cases h33 : c ∈ [33]
  · rw [if_pos h33, if_pos h33, if_pos (by simp only [List.mem_singleton] at h33; rw [h33]; simp), one_mul]
  by_cases hc : c ∈ [11, 22, 15, 24, 13, 31, 26, 35]
  · rw [if_neg h33, if_neg h33, if_pos (List.mem_cons_of_mem _ hc), one_mul]
    dsimp only
    rw [if_pos hc, if_pos hc]
    split_ifs
    · exact c2
    · rw [neg_mul, Real.cos_neg]
    · exact c1
    · exact Real.cos_neg θ
  · have hn : c ∉ [33, 11, 22, 15, 24, 13, 31, 26, 35] := by
      intro h
      rcases List.mem_cons.1 h with h | h
      · exact h33 (by simp [h])
      · exact hc h
    rw [if_neg h33, if_neg h33, if_neg hn, neg_one_mul]
    dsimp only
    rw [if_neg hc, if_neg hc]
    split_ifs
    · exact s2
    · rw [neg_mul, Real.sin_neg]
    · exact s1
    · exact Real.sin_neg θ

theorem exact_comp (θ : ℝ) (ms mr : Bool) {c c' : ℕ} {ε : ℝ}
    (h : (c, c', ε) ∈ [(11, 22, (-1 : ℝ)), (22, 11, -1), (12, 21, 1), (21, 12, 1), (15, 24, -1), (24, 15, -1), (14, 25, 1),
      (25, 14, 1), (13, 23, 1), (23, 13, 1), (31, 32, 1), (32, 31, 1), (34, 35, 1), (35, 34, 1), (16, 26, 1), (26, 16, 1),
      (33, 33, 1)]) :
    exactFactor (Real.pi / 2 - θ) c' ms mr = ε * exactFactor θ c ms mr := by
  have c1 : Real.cos (Real.pi / 2 - θ + Real.pi) = Real.sin (θ + Real.pi) := by
    rw [Real.cos_add_pi, Real.cos_pi_div_two_sub, Real.sin_add_pi]
  have s1 : Real.sin (Real.pi / 2 - θ + Real.pi) = Real.cos (θ + Real.pi) := by
    rw [Real.sin_add_pi, Real.sin_pi_div_two_sub, Real.cos_add_pi]
  have q : ∀ φ ψ : ℝ, Real.cos φ = Real.sin ψ → Real.sin φ = Real.cos ψ →
      Real.cos (φ * 2) = -Real.cos (ψ * 2) ∧ Real.sin (φ * 2) = Real.sin (ψ * 2) := by
    intro φ ψ h1 h2
    rw [mul_comm φ, mul_comm ψ, Real.cos_two_mul, Real.cos_two_mul, Real.sin_two_mul, Real.sin_two_mul, h1, h2]
    have := Real.sin_sq_add_cos_sq ψ
    constructor
    · linear_combination 2 * this
    · ring
  have c0 := Real.cos_pi_div_two_sub θ
  have s0 := Real.sin_pi_div_two_sub θ
  obtain ⟨c2, s2⟩ := q _ _ c1 s1
  obtain ⟨c3, s3⟩ := q _ _ c0 s0
  simp only [List.mem_cons, Prod.mk.injEq, List.not_mem_nil, or_false] at h
  rcases h with ⟨rfl, rfl, rfl⟩ | ⟨rfl, rfl, rfl⟩ | ⟨rfl, rfl, rfl⟩ | ⟨rfl, rfl, rfl⟩ | ⟨rfl, rfl, rfl⟩ | ⟨rfl, rfl, rfl⟩ |
    ⟨rfl, rfl, rfl⟩ | ⟨rfl, rfl, rfl⟩ | ⟨rfl, rfl, rfl⟩ | ⟨rfl, rfl, rfl⟩ | ⟨rfl, rfl, rfl⟩ | ⟨rfl, rfl, rfl⟩ |
    ⟨rfl, rfl, rfl⟩ | ⟨rfl, rfl, rfl⟩ | ⟨rfl, rfl, rfl⟩ | ⟨rfl, rfl, rfl⟩ | ⟨rfl, rfl, rfl⟩ <;>
  cases ms <;> cases mr <;>
  simp only [exactFactor, List.mem_cons, List.not_mem_nil, or_false, or_true, true_or, and_self, and_true, and_false,
    false_and, if_true, if_false, reduceCtorEq, OfNat.ofNat_eq_ofNat, Nat.reduceEqDiff, or_self, one_mul, neg_mul] <;>
  first | exact c0 | exact s0 | exact c1 | exact s1 | exact c2 | exact s2 | exact c3 | exact s3

/-! ## Integrands -/

section
variable {o : Ops} (ho : Safe o) (E : Earth) (zs zr : ℝ) (s r : ℤ) (l : ℝ) (xd ms mr : Bool)

include ho in
/-- The kernels of the components at one wavenumber. -/
theorem wn_forms :
    (∃ p q b : ℂ, wavenumber o E zs zr s r l 11 xd ms mr = (some p, some q, some b) ∧
      wavenumber o E zs zr s r l 22 xd ms mr = (some p, some (-q), some (-b)) ∧
      wavenumber o E zs zr s r l 12 xd ms mr = (none, some q, some b) ∧
      wavenumber o E zs zr s r l 21 xd ms mr = (none, some q, some b)) ∧
    (∃ p q b : ℂ, wavenumber o E zs zr s r l 15 xd ms mr = (some p, some q, some b) ∧
      wavenumber o E zs zr s r l 24 xd ms mr = (some (-p), some q, some b) ∧
      wavenumber o E zs zr s r l 14 xd ms mr = (none, some (-q), some (-b)) ∧
      wavenumber o E zs zr s r l 25 xd ms mr = (none, some q, some b)) ∧
    (∃ q : ℂ, wavenumber o E zs zr s r l 13 xd ms mr = (none, some q, none) ∧
      wavenumber o E zs zr s r l 23 xd ms mr = (none, some q, none)) ∧
    (∃ q : ℂ, wavenumber o E zs zr s r l 31 xd ms mr = (none, some q, none) ∧
      wavenumber o E zs zr s r l 32 xd ms mr = (none, some q, none)) ∧
    (∃ q : ℂ, wavenumber o E zs zr s r l 35 xd ms mr = (none, some q, none) ∧
      wavenumber o E zs zr s r l 34 xd ms mr = (none, some (-q), none)) ∧
    (∃ q : ℂ, wavenumber o E zs zr s r l 16 xd ms mr = (none, some q, none) ∧
      wavenumber o E zs zr s r l 26 xd ms mr = (none, some (-q), none)) ∧
    (∃ p : ℂ, wavenumber o E zs zr s r l 33 xd ms mr = (some p, none, none)) ∧
    wavenumber o E zs zr s r l 36 xd ms mr = (none, some 0, none) := by
  obtain ⟨p, q, b, h1, h2, h3, h4⟩ := grp_ee ho E zs zr s r xd ms mr
  obtain ⟨p', q', b', g1, g2, g3, g4⟩ := grp_em ho E zs zr s r xd ms mr
  obtain ⟨⟨i1, i2, i3⟩, ⟨j1, j2, j3⟩, ⟨k1, k2, k3⟩, ⟨m1, m2, m3⟩, ⟨n1, n2⟩, n3⟩ :=
    grp_one (o := o) E zs zr s r xd ms mr
  refine ⟨⟨p l, q l, b l, ?_, ?_, ?_, ?_⟩, ⟨p' l, q' l, b' l, ?_, ?_, ?_, ?_⟩, ⟨i1 l, ?_, ?_⟩, ⟨j1 l, ?_, ?_⟩,
    ⟨k1 l, ?_, ?_⟩, ⟨m1 l, ?_, ?_⟩, ⟨n1 l, ?_⟩, ?_⟩ <;> rw [← wn_at]
  · rw [h1]; rfl
  · rw [h2]; rfl
  · rw [h3]; rfl
  · rw [h4]; rfl
  · rw [g1]; rfl
  · rw [g2]; rfl
  · rw [g3]; rfl
  · rw [g4]; rfl
  · rw [i2]; rfl
  · rw [i3]; rfl
  · rw [j2]; rfl
  · rw [j3]; rfl
  · rw [k2]; rfl
  · rw [k3]; rfl
  · rw [m2]; rfl
  · rw [m3]; rfl
  · rw [n2]; rfl
  · rw [n3]; rfl

end

section
variable {o : Ops} (ho : Safe o) (E : Earth) (zs zr : ℝ) (s r : ℤ) (l : ℝ) (xd : Bool) {a b : ℕ} (ha : 1 ≤ a ∧ a ≤ 6)
  (hb : 1 ≤ b ∧ b ≤ 6)

include ho ha hb in
theorem integrand_side {c : ℕ} {ms mr : Bool} (hc : checkAb (.int (10 * a + b)) = .ok (c, ms, mr)) (θ ρ : ℝ) (x y : ℂ) :
    hankelIntegrand (wavenumber o E zs zr s r l c xd ms mr) c ρ (exactFactor (-θ) c ms mr) x y =
      sideSign a * sideSign b *
        hankelIntegrand (wavenumber o E zs zr s r l c xd ms mr) c ρ (exactFactor θ c ms mr) x y := by
  rw [checkAb_digits ha hb] at hc
  obtain ⟨rfl, rfl, rfl⟩ : _ = c ∧ _ = ms ∧ _ = mr := by simpa only [Except.ok.injEq, Prod.mk.injEq] using hc
  obtain ⟨⟨p, q, w, h1, h2, h3, h4⟩, ⟨p', q', w', g1, g2, g3, g4⟩, ⟨i1, i2, i3⟩, ⟨j1, j2, j3⟩, ⟨k1, k2, k3⟩, ⟨m1, m2, m3⟩,
    ⟨n1, n2⟩, n3⟩ := wn_forms ho E zs zr s r l xd (decide (4 ≤ b)) (decide (4 ≤ a))
  rw [exact_neg]
  obtain ⟨a1, a2⟩ := ha
  obtain ⟨b1, b2⟩ := hb
  clear hc
  generalize exactFactor θ _ _ _ = f
  interval_cases a <;> interval_cases b <;>
    simp [hankelIntegrand, j2codes, sideSign] at h1 h2 h3 h4 g1 g2 g3 g4 i2 i3 j2 j3 k2 k3 m2 m3 n2 n3 ⊢ <;>
    simp [h1, h2, h3, h4, g1, g2, g3, g4, i2, i3, j2, j3, k2, k3, m2, m3, n2, n3] <;> ring

include ho ha hb in
theorem integrand_swap {c c' : ℕ} {ms mr ms' mr' : Bool} (hc : checkAb (.int (10 * a + b)) = .ok (c, ms, mr))
    (hc' : checkAb (.int (10 * swapDir a + swapDir b)) = .ok (c', ms', mr')) (θ ρ : ℝ) (x y : ℂ) :
    hankelIntegrand (wavenumber o E zs zr s r l c' xd ms' mr') c' ρ (exactFactor (Real.pi / 2 - θ) c' ms' mr') x y =
      swapSign a * swapSign b *
        hankelIntegrand (wavenumber o E zs zr s r l c xd ms mr) c ρ (exactFactor θ c ms mr) x y := by
  have ha' := swap_range ha
  have hb' := swap_range hb
  rw [checkAb_digits ha hb] at hc
  rw [checkAb_digits ha' hb'] at hc'
  have ms_eq : decide (3 < swapDir b) = decide (3 < b) := by
    obtain ⟨b1, b2⟩ := hb
    interval_cases b <;> rfl
  have mr_eq : decide (3 < swapDir a) = decide (3 < a) := by
    obtain ⟨a1, a2⟩ := ha
    interval_cases a <;> rfl
  rw [ms_eq, mr_eq] at hc'
  obtain ⟨rfl, rfl, rfl⟩ : _ = c ∧ _ = ms ∧ _ = mr := by simpa only [Except.ok.injEq, Prod.mk.injEq] using hc
  obtain ⟨rfl, rfl, rfl⟩ : _ = c' ∧ _ = ms' ∧ _ = mr' := by simpa only [Except.ok.injEq, Prod.mk.injEq] using hc'
  obtain ⟨⟨p, q, w, h1, h2, h3, h4⟩, ⟨p', q', w', g1, g2, g3, g4⟩, ⟨i1, i2, i3⟩, ⟨j1, j2, j3⟩, ⟨k1, k2, k3⟩, ⟨m1, m2, m3⟩,
    ⟨n1, n2⟩, n3⟩ := wn_forms ho E zs zr s r l xd (decide (3 < b)) (decide (3 < a))
  have A := fun {c c' : ℕ} {ε : ℝ} => exact_comp θ (decide (3 < b)) (decide (3 < a)) (c := c) (c' := c') (ε := ε)
  generalize decide (3 < b) = ms at *
  generalize decide (3 < a) = mr at *
  have e11 := A (c := 11) (c' := 22) (ε := -1) (by simp)
  have e22 := A (c := 22) (c' := 11) (ε := -1) (by simp)
  have e12 := A (c := 12) (c' := 21) (ε := 1) (by simp)
  have e21 := A (c := 21) (c' := 12) (ε := 1) (by simp)
  have e15 := A (c := 15) (c' := 24) (ε := -1) (by simp)
  have e24 := A (c := 24) (c' := 15) (ε := -1) (by simp)
  have e14 := A (c := 14) (c' := 25) (ε := 1) (by simp)
  have e25 := A (c := 25) (c' := 14) (ε := 1) (by simp)
  have e13 := A (c := 13) (c' := 23) (ε := 1) (by simp)
  have e23 := A (c := 23) (c' := 13) (ε := 1) (by simp)
  have e31 := A (c := 31) (c' := 32) (ε := 1) (by simp)
  have e32 := A (c := 32) (c' := 31) (ε := 1) (by simp)
  have e34 := A (c := 34) (c' := 35) (ε := 1) (by simp)
  have e35 := A (c := 35) (c' := 34) (ε := 1) (by simp)
  have e16 := A (c := 16) (c' := 26) (ε := 1) (by simp)
  have e26 := A (c := 26) (c' := 16) (ε := 1) (by simp)
  have e33 := A (c := 33) (c' := 33) (ε := 1) (by simp)
  clear A hc hc' ha' hb'
  obtain ⟨a1, a2⟩ := ha
  obtain ⟨b1, b2⟩ := hb
  interval_cases a <;> interval_cases b <;>
    simp [hankelIntegrand, j2codes, swapSign, swapDir, h1, h2, h3, h4, g1, g2, g3, g4, i2, i3, j2, j3, k2, k3, m2, m3, n2, n3,
      e11, e22, e12, e21, e15, e24, e14, e25, e13, e23, e31, e32, e34, e35, e16, e26, e33] <;> ring

end

/-! ## Closed form -/

theorem resp_side (sqrt : ℂ → ℂ) (meds : List Med) {i : ℕ} (hi : i < meds.length) {a b : ℕ}
    (ha : 1 ≤ a ∧ a ≤ 6) (hb : 1 ≤ b ∧ b ≤ 6) (x y zs zr : ℝ) :
    resp sqrt meds i a b x (-y) zs zr = sideSign a * sideSign b * resp sqrt meds i a b x y zs zr := by
  rw [resp_eq hi ha hb, resp_eq hi ha hb, neg_sq]
  obtain ⟨a1, a2⟩ := ha
  obtain ⟨b1, b2⟩ := hb
  generalize Real.sqrt (x ^ 2 + y ^ 2) = off
  obtain ⟨⟨A, B, f1⟩, ⟨C, f2⟩, ⟨D, E, F, f3⟩, ⟨G, H, f4⟩⟩ := forms sqrt (negOf meds false) meds[i] off zs zr
  obtain ⟨-, -, ⟨D', E', F', f3'⟩, ⟨G', H', f4'⟩⟩ := forms sqrt (negOf meds false) meds[i] off zr zs
  obtain ⟨⟨A', B', f1'⟩, ⟨C', f2'⟩, -, -⟩ := forms sqrt (negOf meds true) meds[i].dual off zs zr
  interval_cases a <;> interval_cases b <;>
    simp [core, sideSign, f1, f2, f3, f4, f3', f4', f1', f2'] <;> try ring

theorem rot_quarter {a b : ℕ} (ha : 1 ≤ a ∧ a ≤ 6) (hb : 1 ≤ b ∧ b ≤ 6) :
    rotMat (Real.pi / 2) a b = if b = swapDir a then (if a = 1 ∨ a = 4 then -1 else 1) else 0 := by
  obtain ⟨a1, a2⟩ := ha
  obtain ⟨b1, b2⟩ := hb
  interval_cases a <;> interval_cases b <;> simp [rotMat, swapDir]

theorem resp_swap (sqrt : ℂ → ℂ) (meds : List Med) {i : ℕ} (hi : i < meds.length) {a b : ℕ}
    (ha : 1 ≤ a ∧ a ≤ 6) (hb : 1 ≤ b ∧ b ≤ 6) (x y zs zr : ℝ) :
    resp sqrt meds i (swapDir a) (swapDir b) y x zs zr = swapSign a * swapSign b * resp sqrt meds i a b x y zs zr := by
  have h := C36_rotation sqrt meds hi (swap_range ha) (swap_range hb) x (-y) zs zr (Real.pi / 2)
  rw [Real.cos_pi_div_two, Real.sin_pi_div_two] at h
  simp only [zero_mul, one_mul, zero_sub, neg_neg, add_zero] at h
  have ss : ∀ {n : ℕ}, 1 ≤ n ∧ n ≤ 6 → swapDir (swapDir n) = n := by
    rintro n ⟨h1, h2⟩
    interval_cases n <;> simp [swapDir]
  have sg : ∀ {n : ℕ}, 1 ≤ n ∧ n ≤ 6 → (if swapDir n = 1 ∨ swapDir n = 4 then -1 else 1) * sideSign n = swapSign n := by
    rintro n ⟨h1, h2⟩
    interval_cases n <;> simp [swapDir, sideSign, swapSign]
  rw [h, Finset.sum_eq_single a, Finset.sum_eq_single b, rot_quarter (swap_range ha) ha, rot_quarter (swap_range hb) hb,
    if_pos (ss ha).symm, if_pos (ss hb).symm, resp_side sqrt meds hi ha hb, ← sg ha, ← sg hb]
  · ring
  · intro n hn hne
    rw [rot_quarter (swap_range hb) (Finset.mem_Icc.1 hn), if_neg (fun q => hne (q.trans (ss hb)))]
    ring
  · intro q; exact absurd (Finset.mem_Icc.2 hb) q
  · intro n hn hne
    refine Finset.sum_eq_zero fun m _ => ?_
    rw [rot_quarter (swap_range ha) (Finset.mem_Icc.1 hn), if_neg (fun q => hne (q.trans (ss ha)))]
    ring
  · intro q; exact absurd (Finset.mem_Icc.2 ha) q

/-! ## Entries -/

theorem sign_rule {T : HRule} {σ : ℂ} (hT : σ = 1 ∨ OddRule T) (hσ : σ = 1 ∨ σ = -1) (ρ : ℝ) (g : ℝ → ℂ → ℂ → ℂ) :
    T ρ (fun lam x y => σ * g lam x y) = σ * T ρ g := by
  rcases hT with rfl | h
  · simp only [one_mul]
  · exact h.sign hσ ρ g

theorem entry_side {B : Back} (ho : Safe B.o) {T : HRule} {U : UserModel} {a b : ℕ} (ha : 1 ≤ a ∧ a ≤ 6)
    (hb : 1 ≤ b ∧ b ≤ 6) (hT : sideSign a * sideSign b = 1 ∨ OddRule T)
    {c : ℕ} {ms mr : Bool} (hc : checkAb (.int (10 * a + b)) = .ok (c, ms, mr)) (freq : List ℝ) (xd : Option Bool)
    (zs zr : ℝ) {ρ θ θ' : ℝ} (hρ : 0 < ρ) (hcl : ClearAngle θ) {k : ℤ} (hk : θ' = -θ + k * (2 * Real.pi)) {f : ℕ}
    (hf : f < freq.length) :
    entryOf B T U freq xd c ms mr zs zr ρ θ' f =
      sideSign a * sideSign b * entryOf B T U freq xd c ms mr zs zr ρ θ f := by
  have hcl' : ClearAngle θ' := by
    have := clear_add (clear_neg hcl) (8 * k)
    rwa [show -θ + ((8 * k : ℤ) : ℝ) * (Real.pi / 4) = θ' by rw [hk]; push_cast; ring] at this
  have hcos : Real.cos θ' = Real.cos θ := by rw [hk, Real.cos_add_int_mul_two_pi, Real.cos_neg]
  have hsin : Real.sin θ' = -Real.sin θ := by rw [hk, Real.sin_add_int_mul_two_pi, Real.sin_neg]
  have hfac : exactFactor θ' c ms mr = exactFactor (-θ) c ms mr := by rw [hk, exact_periodic]
  unfold entryOf
  dsimp only
  rw [mul_add, clear_exact hcl, clear_exact hcl', hfac]
  congr 1
  · by_cases hd : c ≠ 36 ∧ Direct xd (userOut B.m U).isfullspace
        (layerOf (userOut B.m U).depth zs == layerOf (userOut B.m U).depth zr)
    · rw [if_pos hd, if_pos hd, direct_resp (by simpa using hf) hc hρ _ _ _ hd.1,
        direct_resp (by simpa using hf) hc hρ _ _ _ hd.1, hcos, hsin, mul_neg,
        resp_side _ _ (by simpa using hf) ha hb]
    · rw [if_neg hd, if_neg hd, mul_zero]
  · by_cases hs : Skipped c xd (userOut B.m U).isfullspace
    · rw [if_pos hs, if_pos hs, mul_zero]
    · rw [if_neg hs, if_neg hs, ← sign_rule hT (side_pm a b)]
      refine congrArg (T ρ) ?_
      funext lam x y
      exact integrand_side ho _ _ _ _ _ _ _ ha hb hc _ _ _ _

theorem swap_codes {a b c c' : ℕ} {ms mr ms' mr' : Bool} (ha : 1 ≤ a ∧ a ≤ 6) (hb : 1 ≤ b ∧ b ≤ 6)
    (h : checkAb (.int (10 * a + b)) = .ok (c, ms, mr))
    (h' : checkAb (.int (10 * swapDir a + swapDir b)) = .ok (c', ms', mr')) : c = 36 ↔ c' = 36 := by
  rw [checkAb_digits ha hb] at h
  rw [checkAb_digits (swap_range ha) (swap_range hb)] at h'
  have e := congrArg Prod.fst (Except.ok.inj h)
  have e' := congrArg Prod.fst (Except.ok.inj h')
  simp only at e e'
  rw [← e, ← e']
  obtain ⟨a1, a2⟩ := ha
  obtain ⟨b1, b2⟩ := hb
  clear e e' h h'
  interval_cases a <;> interval_cases b <;> simp [swapDir]

theorem plane_swap {B : Back} (ho : Safe B.o) {T : HRule} {U : UserModel} {a b : ℕ} (ha : 1 ≤ a ∧ a ≤ 6)
    (hb : 1 ≤ b ∧ b ≤ 6) (hT : swapSign a * swapSign b = 1 ∨ OddRule T)
    {c c' : ℕ} {ms mr ms' mr' : Bool} (hc : checkAb (.int (10 * a + b)) = .ok (c, ms, mr))
    (hc' : checkAb (.int (10 * swapDir a + swapDir b)) = .ok (c', ms', mr')) (freq : List ℝ) (xd : Option Bool)
    (zs zr : ℝ) {ρ θ θ' : ℝ} (hρ : 0 < ρ) (hcl : ClearAngle θ) {k : ℤ} (hk : θ' = Real.pi / 2 - θ + k * (2 * Real.pi)) {f : ℕ}
    (hf : f < freq.length) :
    entryOf B T U freq xd c' ms' mr' zs zr ρ θ' f =
      swapSign a * swapSign b * entryOf B T U freq xd c ms mr zs zr ρ θ f := by
  have h36 := swap_codes ha hb hc hc'
  have hcl' : ClearAngle θ' := by
    have := clear_add (clear_neg hcl) (2 + 8 * k)
    rwa [show -θ + ((2 + 8 * k : ℤ) : ℝ) * (Real.pi / 4) = θ' by rw [hk]; push_cast; ring] at this
  have hcos : Real.cos θ' = Real.sin θ := by rw [hk, Real.cos_add_int_mul_two_pi, Real.cos_pi_div_two_sub]
  have hsin : Real.sin θ' = Real.cos θ := by rw [hk, Real.sin_add_int_mul_two_pi, Real.sin_pi_div_two_sub]
  have hfac : exactFactor θ' c' ms' mr' = exactFactor (Real.pi / 2 - θ) c' ms' mr' := by rw [hk, exact_periodic]
  unfold entryOf
  dsimp only
  rw [mul_add, clear_exact hcl, clear_exact hcl', hfac]
  congr 1
  · by_cases hd : c ≠ 36 ∧ Direct xd (userOut B.m U).isfullspace
        (layerOf (userOut B.m U).depth zs == layerOf (userOut B.m U).depth zr)
    · have hd' : c' ≠ 36 := fun h => hd.1 (h36.2 h)
      rw [if_pos hd, if_pos ⟨hd', hd.2⟩, direct_resp (by simpa using hf) hc hρ _ _ _ hd.1,
        direct_resp (by simpa using hf) hc' hρ _ _ _ hd', hcos, hsin, resp_swap _ _ (by simpa using hf) ha hb]
    · rw [if_neg hd, if_neg (fun q => hd ⟨fun h => q.1 (h36.1 h), q.2⟩), mul_zero]
  · by_cases hs : Skipped c xd (userOut B.m U).isfullspace
    · have : Skipped c' xd (userOut B.m U).isfullspace := by
        rcases hs with h | h
        · exact Or.inl (h36.1 h)
        · exact Or.inr h
      rw [if_pos hs, if_pos this, mul_zero]
    · have : ¬ Skipped c' xd (userOut B.m U).isfullspace := by
        rintro (h | h)
        · exact hs (Or.inl (h36.2 h))
        · exact hs (Or.inr h)
      rw [if_neg hs, if_neg this, ← sign_rule hT (swap_pm a b)]
      refine congrArg (T ρ) ?_
      funext lam x y
      exact integrand_swap ho _ _ _ _ _ _ _ ha hb hc hc' _ _ _ _

theorem bc_neg (l : List ℝ) (s : ℕ) : bc (l.map (-·)) s = -bc l s := by
  unfold bc
  rw [List.length_map]
  split_ifs with h
  · obtain ⟨w, rfl⟩ := List.length_eq_one_iff.1 h
    simp
  · by_cases hs : s < l.length
    · rw [getD_eq (by simpa using hs), getD_eq hs, List.getElem_map]
    · rw [List.getD_eq_default _ _ (by simpa using hs), List.getD_eq_default _ _ (by simpa using hs), neg_zero]

theorem num_neg (x y z : List ℝ) : numDipoles [x, y.map (-·), z] = numDipoles [x, y, z] := by
  simp [numDipoles]

theorem num_swap {x y z : List ℝ} (h : x.length = y.length ∨ x.length = 1 ∨ y.length = 1) :
    numDipoles [y, x, z] = numDipoles [x, y, z] := by
  simp only [numDipoles]
  split_ifs <;> omega

/-! ## The routine -/

/-- **C58, reflection.**  All `y` coordinates with the opposite sign: every entry is multiplied with the signs of receiver
and source component.  For every valid medium, all 36 components, all frequencies, any setting of `xdirect`, also for
coincident horizontal positions; for components whose sign is one with any integration rule, otherwise with an odd one. -/
theorem C58_side {B : Back} (hm : 0 < B.m.minRes) (hof : 0 < B.m.minOff) (ho : Safe B.o) {T : HRule} (hB : Uses B T)
    {A A' : DipoleArgs} {U : UserModel} (hU : U.Valid B.m.minRes) (hA : Describes A U) (hA' : Describes A' U)
    {xs ys xr yr : List ℝ} {zs zr : ℝ} (hsrc : A.src = [xs, ys, [zs]]) (hrcv : A.rcv = [xr, yr, [zr]])
    (hsrc' : A'.src = [xs, ys.map (-·), [zs]]) (hrcv' : A'.rcv = [xr, yr.map (-·), [zr]])
    (hfq : A'.freq = A.freq) (hxd : A'.xdirect = A.xdirect) {a b : ℕ} (ha : 1 ≤ a ∧ a ≤ 6) (hb : 1 ≤ b ∧ b ≤ 6)
    (hab : toInt A.ab = .ok (10 * a + b)) (hab' : toInt A'.ab = .ok (10 * a + b))
    (hT : sideSign a * sideSign b = 1 ∨ OddRule T)
    (hls : xs.length = ys.length ∨ xs.length = 1 ∨ ys.length = 1)
    (hlr : xr.length = yr.length ∨ xr.length = 1 ∨ yr.length = 1)
    (ns : 0 < numDipoles A.src) (nr : 0 < numDipoles A.rcv) :
    ∃ arr arr', (dipole B A).val = .ok (if A.squeeze then arr.squeeze else arr) ∧
      (dipole B A').val = .ok (if A'.squeeze then arr'.squeeze else arr') ∧
      arr.shape = [A.freq.length, numDipoles A.rcv, numDipoles A.src] ∧ arr'.shape = arr.shape ∧
      ∀ f r s : ℕ, f < A.freq.length → r < numDipoles A.rcv → s < numDipoles A.src →
        ClearAngle (thetaOf (bc xr r - bc xs s) (bc yr r - bc ys s)) →
        arr'.get [f, r, s] = sideSign a * sideSign b * arr.get [f, r, s] := by
  obtain ⟨c, ms, mr, hc⟩ : ∃ abc ms mr, checkAb (.int (10 * a + b)) = .ok (abc, ms, mr) :=
    ⟨_, _, _, checkAb_digits ha hb⟩
  have n1 : numDipoles A'.src = numDipoles A.src := by rw [hsrc, hsrc', num_neg]
  have n2 : numDipoles A'.rcv = numDipoles A.rcv := by rw [hrcv, hrcv', num_neg]
  obtain ⟨arr, e1, e2, e3⟩ := entries hm hB hU hA hab hc hsrc hrcv hls hlr ns nr
  obtain ⟨arr', g1, g2, g3⟩ := entries hm hB hU hA' hab' hc hsrc' hrcv' (by simpa using hls) (by simpa using hlr)
    (by rw [n1]; exact ns) (by rw [n2]; exact nr)
  refine ⟨arr, arr', e1, g1, e2, by rw [g2, e2, n1, n2, hfq], ?_⟩
  intro f r s hf hr hs hcl
  rw [e3 f r s hf hr hs, g3 f r s (by rw [hfq]; exact hf) (by rw [n2]; exact hr) (by rw [n1]; exact hs), hfq, hxd,
    bc_neg, bc_neg, show -bc yr r - -bc ys s = -(bc yr r - bc ys s) by ring]
  obtain ⟨k, hk⟩ := theta_side (bc xr r - bc xs s) (bc yr r - bc ys s)
  rw [show rhoOf B.m.minOff (bc xr r - bc xs s) (-(bc yr r - bc ys s)) =
    rhoOf B.m.minOff (bc xr r - bc xs s) (bc yr r - bc ys s) by simp only [rhoOf, neg_sq]]
  exact entry_side ho ha hb hT hc _ _ _ _ (lt_max_of_lt_right hof) hcl hk hf

/-- **C58, exchange of the axes.**  `x` and `y` exchanged for sources, receivers and both components. -/
theorem C58_swap {B : Back} (hm : 0 < B.m.minRes) (hof : 0 < B.m.minOff) (ho : Safe B.o) {T : HRule} (hB : Uses B T)
    {A A' : DipoleArgs} {U : UserModel} (hU : U.Valid B.m.minRes) (hA : Describes A U) (hA' : Describes A' U)
    {xs ys xr yr : List ℝ} {zs zr : ℝ} (hsrc : A.src = [xs, ys, [zs]]) (hrcv : A.rcv = [xr, yr, [zr]])
    (hsrc' : A'.src = [ys, xs, [zs]]) (hrcv' : A'.rcv = [yr, xr, [zr]])
    (hfq : A'.freq = A.freq) (hxd : A'.xdirect = A.xdirect) {a b : ℕ} (ha : 1 ≤ a ∧ a ≤ 6) (hb : 1 ≤ b ∧ b ≤ 6)
    (hab : toInt A.ab = .ok (10 * a + b)) (hab' : toInt A'.ab = .ok (10 * swapDir a + swapDir b))
    (hT : swapSign a * swapSign b = 1 ∨ OddRule T)
    (hls : xs.length = ys.length ∨ xs.length = 1 ∨ ys.length = 1)
    (hlr : xr.length = yr.length ∨ xr.length = 1 ∨ yr.length = 1)
    (ns : 0 < numDipoles A.src) (nr : 0 < numDipoles A.rcv) :
    ∃ arr arr', (dipole B A).val = .ok (if A.squeeze then arr.squeeze else arr) ∧
      (dipole B A').val = .ok (if A'.squeeze then arr'.squeeze else arr') ∧
      arr.shape = [A.freq.length, numDipoles A.rcv, numDipoles A.src] ∧ arr'.shape = arr.shape ∧
      ∀ f r s : ℕ, f < A.freq.length → r < numDipoles A.rcv → s < numDipoles A.src →
        (bc xr r ≠ bc xs s ∨ bc yr r ≠ bc ys s) →
        ClearAngle (thetaOf (bc xr r - bc xs s) (bc yr r - bc ys s)) →
        arr'.get [f, r, s] = swapSign a * swapSign b * arr.get [f, r, s] := by
  obtain ⟨c, ms, mr, hc⟩ : ∃ abc ms mr, checkAb (.int (10 * a + b)) = .ok (abc, ms, mr) :=
    ⟨_, _, _, checkAb_digits ha hb⟩
  obtain ⟨c', ms', mr', hc'⟩ : ∃ abc ms mr, checkAb (.int (10 * swapDir a + swapDir b)) = .ok (abc, ms, mr) :=
    ⟨_, _, _, checkAb_digits (swap_range ha) (swap_range hb)⟩
  have n1 : numDipoles A'.src = numDipoles A.src := by rw [hsrc, hsrc', num_swap hls]
  have n2 : numDipoles A'.rcv = numDipoles A.rcv := by rw [hrcv, hrcv', num_swap hlr]
  have sw : ∀ {x y : List ℝ}, (x.length = y.length ∨ x.length = 1 ∨ y.length = 1) →
      (y.length = x.length ∨ y.length = 1 ∨ x.length = 1) := by
    intro x y h; omega
  obtain ⟨arr, e1, e2, e3⟩ := entries hm hB hU hA hab hc hsrc hrcv hls hlr ns nr
  obtain ⟨arr', g1, g2, g3⟩ := entries hm hB hU hA' hab' hc' hsrc' hrcv' (sw hls) (sw hlr)
    (by rw [n1]; exact ns) (by rw [n2]; exact nr)
  refine ⟨arr, arr', e1, g1, e2, by rw [g2, e2, n1, n2, hfq], ?_⟩
  intro f r s hf hr hs hne hcl
  rw [e3 f r s hf hr hs, g3 f r s (by rw [hfq]; exact hf) (by rw [n2]; exact hr) (by rw [n1]; exact hs), hfq, hxd]
  obtain ⟨k, hk⟩ := theta_swap (dx := bc xr r - bc xs s) (dy := bc yr r - bc ys s) (by
    rcases hne with h | h
    · exact Or.inl (sub_ne_zero.2 h)
    · exact Or.inr (sub_ne_zero.2 h))
  rw [show rhoOf B.m.minOff (bc yr r - bc ys s) (bc xr r - bc xs s) =
    rhoOf B.m.minOff (bc xr r - bc xs s) (bc yr r - bc ys s) by simp only [rhoOf, add_comm]]
  exact plane_swap ho ha hb hT hc hc' _ _ _ _ (lt_max_of_lt_right hof) hcl hk hf

/-- **C58, quarter turn.**  Sources, receivers and both directions turned by 90° about the vertical axis. -/
theorem C58_turn {B : Back} (hm : 0 < B.m.minRes) (hof : 0 < B.m.minOff) (ho : Safe B.o) {T : HRule} (hB : Uses B T)
    {A A' : DipoleArgs} {U : UserModel} (hU : U.Valid B.m.minRes) (hA : Describes A U) (hA' : Describes A' U)
    {xs ys xr yr : List ℝ} {zs zr : ℝ} (hsrc : A.src = [xs, ys, [zs]]) (hrcv : A.rcv = [xr, yr, [zr]])
    (hsrc' : A'.src = [ys.map (-·), xs, [zs]]) (hrcv' : A'.rcv = [yr.map (-·), xr, [zr]])
    (hfq : A'.freq = A.freq) (hxd : A'.xdirect = A.xdirect) {a b : ℕ} (ha : 1 ≤ a ∧ a ≤ 6) (hb : 1 ≤ b ∧ b ≤ 6)
    (hab : toInt A.ab = .ok (10 * a + b)) (hab' : toInt A'.ab = .ok (10 * swapDir a + swapDir b))
    (hT : (sideSign a * sideSign b = 1 ∧ swapSign a * swapSign b = 1) ∨ OddRule T)
    (hls : xs.length = ys.length ∨ xs.length = 1 ∨ ys.length = 1)
    (hlr : xr.length = yr.length ∨ xr.length = 1 ∨ yr.length = 1)
    (ns : 0 < numDipoles A.src) (nr : 0 < numDipoles A.rcv) :
    ∃ arr arr', (dipole B A).val = .ok (if A.squeeze then arr.squeeze else arr) ∧
      (dipole B A').val = .ok (if A'.squeeze then arr'.squeeze else arr') ∧
      arr.shape = [A.freq.length, numDipoles A.rcv, numDipoles A.src] ∧ arr'.shape = arr.shape ∧
      ∀ f r s : ℕ, f < A.freq.length → r < numDipoles A.rcv → s < numDipoles A.src →
        (bc xr r ≠ bc xs s ∨ bc yr r ≠ bc ys s) →
        ClearAngle (thetaOf (bc xr r - bc xs s) (bc yr r - bc ys s)) →
        arr'.get [f, r, s] = turnSign a * turnSign b * arr.get [f, r, s] := by
  obtain ⟨c, ms, mr, hc⟩ : ∃ abc ms mr, checkAb (.int (10 * a + b)) = .ok (abc, ms, mr) :=
    ⟨_, _, _, checkAb_digits ha hb⟩
  obtain ⟨c', ms', mr', hc'⟩ : ∃ abc ms mr, checkAb (.int (10 * swapDir a + swapDir b)) = .ok (abc, ms, mr) :=
    ⟨_, _, _, checkAb_digits (swap_range ha) (swap_range hb)⟩
  have n1 : numDipoles A'.src = numDipoles A.src := by
    rw [hsrc, hsrc', num_swap (by simpa using hls), num_neg]
  have n2 : numDipoles A'.rcv = numDipoles A.rcv := by
    rw [hrcv, hrcv', num_swap (by simpa using hlr), num_neg]
  have sw : ∀ {x y : List ℝ}, (x.length = y.length ∨ x.length = 1 ∨ y.length = 1) →
      ((y.map (-·)).length = x.length ∨ (y.map (-·)).length = 1 ∨ x.length = 1) := by
    intro x y h; rw [List.length_map]; omega
  obtain ⟨arr, e1, e2, e3⟩ := entries hm hB hU hA hab hc hsrc hrcv hls hlr ns nr
  obtain ⟨arr', g1, g2, g3⟩ := entries hm hB hU hA' hab' hc' hsrc' hrcv' (sw hls) (sw hlr)
    (by rw [n1]; exact ns) (by rw [n2]; exact nr)
  refine ⟨arr, arr', e1, g1, e2, by rw [g2, e2, n1, n2, hfq], ?_⟩
  intro f r s hf hr hs hne hcl
  rw [e3 f r s hf hr hs, g3 f r s (by rw [hfq]; exact hf) (by rw [n2]; exact hr) (by rw [n1]; exact hs), hfq, hxd,
    bc_neg, bc_neg, show -bc yr r - -bc ys s = -(bc yr r - bc ys s) by ring]
  obtain ⟨k, hk⟩ := theta_side (bc xr r - bc xs s) (bc yr r - bc ys s)
  obtain ⟨j, hj⟩ := theta_swap (dx := bc xr r - bc xs s) (dy := -(bc yr r - bc ys s)) (by
    rcases hne with h | h
    · exact Or.inl (sub_ne_zero.2 h)
    · exact Or.inr (neg_ne_zero.2 (sub_ne_zero.2 h)))
  rw [show rhoOf B.m.minOff (-(bc yr r - bc ys s)) (bc xr r - bc xs s) =
    rhoOf B.m.minOff (bc xr r - bc xs s) (bc yr r - bc ys s) by simp only [rhoOf, neg_sq, add_comm]]
  have hcl' : ClearAngle (thetaOf (bc xr r - bc xs s) (-(bc yr r - bc ys s))) := by
    have := clear_add (clear_neg hcl) (8 * k)
    rwa [show -thetaOf (bc xr r - bc xs s) (bc yr r - bc ys s) + ((8 * k : ℤ) : ℝ) * (Real.pi / 4) =
      thetaOf (bc xr r - bc xs s) (-(bc yr r - bc ys s)) by rw [hk]; push_cast; ring] at this
  have hρ : 0 < rhoOf B.m.minOff (bc xr r - bc xs s) (bc yr r - bc ys s) := lt_max_of_lt_right hof
  rw [plane_swap ho ha hb (hT.imp And.right id) hc hc' _ _ _ _ hρ hcl' hj hf,
    entry_side ho ha hb (hT.imp And.left id) hc _ _ _ _ hρ hcl hk hf, turn_two ha, turn_two hb]
  ring

/-! ## Coincident horizontal positions -/

/-- Straight below an `x` dipole becomes straight below a `y` dipole. -/
noncomputable def belowY : DipoleArgs := { belowArgs with ab := .int 32 }

theorem belowY_describes : Describes belowY wholeSpace :=
  ⟨_, .topDown false false (by simp [belowY, belowArgs, wholeSpace, allDepths]) rfl rfl rfl rfl rfl rfl⟩

/-- **C58, coincident positions (violated).**  Straight below a horizontal dipole in a whole space: the vertical electric
component of a `y` dipole is zero, the one of an `x` dipole is not.  All other premises of `C58_swap` hold. -/
theorem C58_coincident (T : ℝ → (ℝ → ℂ) → ℂ) : ∃ arr arr',
    (dipole (ruleBack T) belowArgs).val = .ok (NdArray.squeeze arr) ∧
    (dipole (ruleBack T) belowY).val = .ok (NdArray.squeeze arr') ∧ arr.shape = [1, 1, 1] ∧ arr'.shape = [1, 1, 1] ∧
    arr'.get [0, 0, 0] = 0 ∧ arr'.get [0, 0, 0] ≠ swapSign 3 * swapSign 1 * arr.get [0, 0, 0] := by
  have hm : 0 < (ruleBack T).m.minRes := by norm_num [ruleBack, Mins.init]
  have hU : wholeSpace.Valid (ruleBack T).m.minRes := wholeSpace_valid
  obtain ⟨arr, e1, e2, e3⟩ := entries hm (ruleBack_uses T) hU below_describes (a := 3) (b := 1) rfl (c := 31) (ms := false)
    (mr := false) rfl (xs := [0]) (ys := [0]) (zs := 0) (xr := [0]) (yr := [0]) (zr := 100) rfl rfl (by simp) (by simp)
    (by simp [numDipoles, belowArgs]) (by simp [numDipoles, belowArgs])
  obtain ⟨arr', g1, g2, g3⟩ := entries hm (ruleBack_uses T) hU belowY_describes (a := 3) (b := 2) rfl (c := 32) (ms := false)
    (mr := false) rfl (xs := [0]) (ys := [0]) (zs := 0) (xr := [0]) (yr := [0]) (zr := 100) rfl rfl (by simp) (by simp)
    (by simp [numDipoles, belowArgs, belowY]) (by simp [numDipoles, belowArgs, belowY])
  have E := e3 0 0 0 (by simp [belowArgs]) (by simp [belowArgs, numDipoles]) (by simp [belowArgs, numDipoles])
  have G := g3 0 0 0 (by simp [belowY, belowArgs]) (by simp [belowY, belowArgs, numDipoles])
    (by simp [belowY, belowArgs, numDipoles])
  have hb : bc [0] 0 - bc [0] 0 = 0 := by simp
  rw [hb] at E G
  obtain ⟨l, q1, l0, l1⟩ := whole_entry T (a := 3) (b := 1) (c := 31) rfl (by norm_num) 0 100
  obtain ⟨k, p1, k0, k1⟩ := whole_entry T (a := 3) (b := 2) (c := 32) rfl (by norm_num) 0 100
  obtain rfl : k = l := by omega
  replace E := E.trans q1
  replace G := G.trans p1
  obtain ⟨e, z, he, hz, hmed⟩ := whole_med k k0 k1
  have hoff : Real.sqrt ((1e-3 : ℝ) ^ 2 + 0 ^ 2) = 1e-3 := by
    rw [zero_pow two_ne_zero, add_zero, Real.sqrt_sq (by norm_num)]
  obtain ⟨K, K0, hK⟩ := ginHV_real he hz (zs := 0) (zr := 100) (show (0 : ℝ) < 1e-3 by norm_num) 31 (by simp) 0
  have v1 : arr.get [0, 0, 0] = ((K * (100 - 0) * 1e-3 : ℝ) : ℂ) := by
    rw [E, resp_eq (by simp) (by norm_num) (by norm_num), ← hK]
    simp only [List.map_cons, List.map_nil, List.getElem_cons_zero, hmed, hoff]
    simp [core]
  have v2 : arr'.get [0, 0, 0] = 0 := by
    rw [G, resp_eq (by simp) (by norm_num) (by norm_num)]
    simp [core, ginHV]
  refine ⟨arr, arr', e1, g1, by simpa [belowArgs, numDipoles] using e2,
    by simpa [belowY, belowArgs, numDipoles] using g2, v2, ?_⟩
  intro h
  have hs : swapSign 3 * swapSign 1 = 1 := by simp [swapSign]
  rw [hs, one_mul, v2, v1] at h
  have : K * (100 - 0) * 1e-3 = 0 := by exact_mod_cast h.symm
  nlinarith

/-! ## Concrete cases -/

/-- The marine case with receivers off the axis: source at (0, 0), receivers at (1000, 1000), (2000, 2000), (3000, 3000). -/
noncomputable def marineDiag : DipoleArgs :=
  { marineArgs with rcv := [[1000, 2000, 3000], [1000, 2000, 3000], [1000]], ab := .int 11 }

/-- Reflected. -/
noncomputable def marineSide : DipoleArgs :=
  { marineArgs with src := [[0], [-0], [950]], rcv := [[1000, 2000, 3000], [-1000, -2000, -3000], [1000]], ab := .int 11 }

/-- Turned. -/
noncomputable def marineTurn : DipoleArgs :=
  { marineArgs with src := [[-0], [0], [950]], rcv := [[-1000, -2000, -3000], [1000, 2000, 3000], [1000]], ab := .int 22 }

theorem diag_describes : Describes marineDiag marine :=
  ⟨_, .topDown false false (by simp [marineDiag, marineArgs, marine, allDepths]) rfl rfl rfl rfl rfl rfl⟩

theorem side_describes : Describes marineSide marine :=
  ⟨_, .topDown false false (by simp [marineSide, marineArgs, marine, allDepths]) rfl rfl rfl rfl rfl rfl⟩

theorem turn_describes : Describes marineTurn marine :=
  ⟨_, .topDown false false (by simp [marineTurn, marineArgs, marine, allDepths]) rfl rfl rfl rfl rfl rfl⟩

theorem diag_clear : ClearAngle (thetaOf (bc [1000, 2000, 3000] 2 - bc [0] 0) (bc [1000, 2000, 3000] 2 - bc [0] 0)) := by
  have e : thetaOf (bc [1000, 2000, 3000] 2 - bc [0] 0) (bc [1000, 2000, 3000] 2 - bc [0] 0) =
      0 + ((1 : ℤ) : ℝ) * (Real.pi / 4) := by
    obtain ⟨k, hk⟩ := theta_swap (dx := 3000) (dy := 3000) (by norm_num)
    have hb : (bc [1000, 2000, 3000] 2 - bc [0] 0) = 3000 := by simp [bc]
    rw [hb]
    have h1 : |thetaOf 3000 3000| < Real.pi / 2 := by
      rw [thetaOf, Complex.abs_arg_lt_pi_div_two_iff]; left; norm_num
    rw [abs_lt] at h1
    have hpi := Real.pi_pos
    have k1 : (k : ℝ) < 1 := by
      by_contra q
      have : Real.pi ≤ k * Real.pi := by nlinarith
      linarith
    have k2 : (-1 : ℝ) < k := by
      by_contra q
      have : k * Real.pi ≤ -Real.pi := by nlinarith
      linarith
    obtain rfl : k = 0 := by
      have a1 : k < 1 := by exact_mod_cast k1
      have a2 : -1 < k := by exact_mod_cast k2
      omega
    push_cast at hk ⊢
    linarith
  rw [e]
  exact clear_add clear_zero 1

/-- In-line response of three receivers on the diagonal: the same on the other side, for any integration rule. -/
example (T : ℝ → (ℝ → ℂ) → ℂ) : ∃ arr arr', (dipole (ruleBack T) marineDiag).val = .ok (NdArray.squeeze arr) ∧
    (dipole (ruleBack T) marineSide).val = .ok (NdArray.squeeze arr') ∧ arr.shape = [2, 3, 1] ∧
    arr'.get [1, 2, 0] = arr.get [1, 2, 0] := by
  obtain ⟨arr, arr', h1, h2, h3, h4, h5⟩ := C58_side (B := ruleBack T)
    (by norm_num [ruleBack, Mins.init]) (by norm_num [ruleBack, Mins.init]) safe_exact (ruleBack_uses _) marine_valid
    diag_describes side_describes (xs := [0]) (ys := [0]) (zs := 950)
    (xr := [1000, 2000, 3000]) (yr := [1000, 2000, 3000]) (zr := 1000) rfl rfl rfl rfl rfl rfl
    (a := 1) (b := 1) (by norm_num) (by norm_num) rfl rfl (by simp [sideSign]) (by simp) (by simp)
    (by simp [numDipoles, marineDiag, marineArgs]) (by simp [numDipoles, marineDiag])
  refine ⟨arr, arr', h1, h2, by simpa [marineDiag, marineArgs, numDipoles] using h3, ?_⟩
  rw [h5 1 2 0 (by simp [marineDiag, marineArgs]) (by simp [numDipoles, marineDiag])
    (by simp [numDipoles, marineDiag, marineArgs]) diag_clear]
  simp [sideSign]

/-- Turned by 90°, `y` dipole and `y` component instead of `x`. -/
example (T : ℝ → (ℝ → ℂ) → ℂ) : ∃ arr arr', (dipole (ruleBack T) marineDiag).val = .ok (NdArray.squeeze arr) ∧
    (dipole (ruleBack T) marineTurn).val = .ok (NdArray.squeeze arr') ∧ arr.shape = [2, 3, 1] ∧
    arr'.get [1, 2, 0] = arr.get [1, 2, 0] := by
  obtain ⟨arr, arr', h1, h2, h3, h4, h5⟩ := C58_turn (B := ruleBack T)
    (by norm_num [ruleBack, Mins.init]) (by norm_num [ruleBack, Mins.init]) safe_exact (ruleBack_uses _) marine_valid
    diag_describes turn_describes (xs := [0]) (ys := [0]) (zs := 950)
    (xr := [1000, 2000, 3000]) (yr := [1000, 2000, 3000]) (zr := 1000) rfl rfl rfl rfl rfl rfl
    (a := 1) (b := 1) (by norm_num) (by norm_num) rfl rfl (by simp [sideSign, swapSign]) (by simp) (by simp)
    (by simp [numDipoles, marineDiag, marineArgs]) (by simp [numDipoles, marineDiag])
  refine ⟨arr, arr', h1, h2, by simpa [marineDiag, marineArgs, numDipoles] using h3, ?_⟩
  rw [h5 1 2 0 (by simp [marineDiag, marineArgs]) (by simp [numDipoles, marineDiag])
    (by simp [numDipoles, marineDiag, marineArgs]) (Or.inl (by simp [bc])) diag_clear]
  simp [turnSign]

/-- The axes exchanged, integrated exactly: the marine receivers (on the `x` axis) moved to the `y` axis, the magnetic `x`
dipole becomes a magnetic `y` dipole, the electric `y` component an electric `x` component, and the sign changes. -/
noncomputable def marineY : DipoleArgs :=
  { marineArgs with src := [[0], [0], [950]], rcv := [[0], [1000, 2000, 3000], [1000]], ab := .int 15 }

theorem marineY_describes : Describes marineY marine :=
  ⟨_, .topDown false false (by simp [marineY, marineArgs, marine, allDepths]) rfl rfl rfl rfl rfl rfl⟩

example : ∃ arr arr', (dipole (ruleBack fun _ g => ∫ lam in Ioi (0 : ℝ), g lam) marineArgs).val = .ok (NdArray.squeeze arr) ∧
    (dipole (ruleBack fun _ g => ∫ lam in Ioi (0 : ℝ), g lam) marineY).val = .ok (NdArray.squeeze arr') ∧
    arr.shape = [2, 3, 1] ∧ arr'.get [1, 2, 0] = -arr.get [1, 2, 0] := by
  obtain ⟨arr, arr', h1, h2, h3, h4, h5⟩ := C58_swap (B := ruleBack fun _ g => ∫ lam in Ioi (0 : ℝ), g lam)
    (by norm_num [ruleBack, Mins.init]) (by norm_num [ruleBack, Mins.init]) safe_exact (ruleBack_uses _) marine_valid
    marine_describes marineY_describes (xs := [0]) (ys := [0]) (zs := 950)
    (xr := [1000, 2000, 3000]) (yr := [0]) (zr := 1000) rfl rfl rfl rfl rfl rfl
    (a := 2) (b := 4) (by norm_num) (by norm_num) rfl rfl (Or.inr exact_odd) (by simp) (by simp)
    (by simp [numDipoles, marineArgs]) (by simp [numDipoles, marineArgs])
  refine ⟨arr, arr', h1, h2, by simpa [marineArgs, numDipoles] using h3, ?_⟩
  have t0 : thetaOf (bc [1000, 2000, 3000] 2 - bc [0] 0) (bc [0] 2 - bc [0] 0) = 0 := by
    have : ((⟨3000, 0⟩ : ℂ)) = ((3000 : ℝ) : ℂ) := rfl
    simp [thetaOf, bc]
    rw [this]; exact Complex.arg_ofReal_of_nonneg (by norm_num)
  rw [h5 1 2 0 (by simp [marineArgs]) (by simp [numDipoles, marineArgs]) (by simp [numDipoles, marineArgs])
    (Or.inl (by simp [bc])) (by rw [t0]; exact clear_zero)]
  norm_num [swapSign]

end Verif.Props
