import Verif.Lemmas.DirectInt
import Verif.Props.C36_Fullspace

/-!
# The Hankel transform of the direct field of a layer
-/

namespace Verif.Lemmas
open Verif.Spec Verif.Kernel Verif.Transform Verif.Fullspace Verif.Lemmas.Full Verif.Props MeasureTheory Set

/-! ## Rotation of the path -/

theorem rot_tm {p v q : ℂ} (hp : 0 < p.re ∧ 0 ≤ p.im) (hv : 0 < v.re ∧ 0 ≤ v.im)
    (hq : 0 ≤ q.re ∧ 0 ≤ q.im ∧ q ≠ 0) :
    ∃ c : ℂ, 0 < c.re ∧ 0 < (c * (p / v)).re ∧ 0 < (c * (p * q)).re := by
  obtain ⟨p1, p2⟩ := hp
  obtain ⟨v1, v2⟩ := hv
  obtain ⟨q1, q2, q3⟩ := hq
  have hp0 : p ≠ 0 := fun e => by rw [e] at p1; simp at p1
  have hv0 : v ≠ 0 := fun e => by rw [e] at v1; simp at v1
  have np := Complex.normSq_pos.2 hp0
  have nv := Complex.normSq_pos.2 hv0
  set δ : ℝ := min (p.re / (p.im + 1)) (v.re / (v.im + 1)) with hδ
  have d0 : 0 < δ := lt_min (by positivity) (by positivity)
  have d1 : δ * p.im < p.re := by
    have : δ * (p.im + 1) ≤ p.re := (le_div_iff₀ (by positivity)).1 (min_le_left _ _)
    linarith
  have d2 : δ * v.im < v.re := by
    have : δ * (v.im + 1) ≤ v.re := (le_div_iff₀ (by positivity)).1 (min_le_right _ _)
    linarith
  have d3 : 0 < q.re + δ * q.im := by
    rcases q1.lt_or_eq with h | h
    · have := mul_nonneg d0.le q2; linarith
    · rcases q2.lt_or_eq with h' | h'
      · have := mul_pos d0 h'; linarith
      · exact absurd (Complex.ext h.symm h'.symm) q3
  have cc : (starRingEnd ℂ) p * p = (Complex.normSq p : ℂ) := by rw [mul_comm, Complex.mul_conj]
  refine ⟨(starRingEnd ℂ) p * (1 - δ * Complex.I), ?_, ?_, ?_⟩
  · simp; linarith
  · have e : (starRingEnd ℂ) p * (1 - δ * Complex.I) * (p / v) =
        ((Complex.normSq p / Complex.normSq v : ℝ) : ℂ) * ((1 - δ * Complex.I) * (starRingEnd ℂ) v) := by
      have : v⁻¹ = (starRingEnd ℂ) v / (Complex.normSq v : ℂ) := by
        rw [Complex.inv_def]; push_cast; ring
      rw [div_eq_mul_inv, this]
      push_cast
      linear_combination (1 - δ * Complex.I) * ((starRingEnd ℂ) v / (Complex.normSq v : ℂ)) * cc
    rw [e, Complex.re_ofReal_mul]
    refine mul_pos (by positivity) ?_
    simp; linarith
  · have e : (starRingEnd ℂ) p * (1 - δ * Complex.I) * (p * q) =
        ((Complex.normSq p : ℝ) : ℂ) * ((1 - δ * Complex.I) * q) := by
      linear_combination ((1 - δ * Complex.I) * q) * cc
    rw [e, Complex.re_ofReal_mul]
    refine mul_pos np ?_
    simp; linarith

theorem rot_te {p v q : ℂ} (hp : 0 ≤ p.re ∧ 0 ≤ p.im ∧ p ≠ 0) (hv : 0 ≤ v.re ∧ 0 ≤ v.im ∧ v ≠ 0)
    (hq : 0 < q.re ∧ 0 ≤ q.im) :
    ∃ c : ℂ, 0 < c.re ∧ 0 < (c * (p / v)).re ∧ 0 < (c * (p * q)).re := by
  obtain ⟨q1, q2⟩ := hq
  obtain ⟨v1, v2, v3⟩ := hv
  obtain ⟨p1, p2, p3⟩ := hp
  have np := Complex.normSq_pos.2 p3
  have nv := Complex.normSq_pos.2 v3
  set δ : ℝ := q.re / (q.im + 1) with hδ
  have d0 : 0 < δ := by positivity
  have d1 : δ * q.im < q.re := by
    have : δ * (q.im + 1) = q.re := by rw [hδ]; field_simp
    linarith
  have d3 : ∀ w : ℂ, 0 ≤ w.re → 0 ≤ w.im → w ≠ 0 → 0 < w.re + δ * w.im := by
    intro w w1 w2 w3
    rcases w1.lt_or_eq with h | h
    · have := mul_nonneg d0.le w2; linarith
    · rcases w2.lt_or_eq with h' | h'
      · have := mul_pos d0 h'; linarith
      · exact absurd (Complex.ext h.symm h'.symm) w3
  have cc : (starRingEnd ℂ) p * p = (Complex.normSq p : ℂ) := by rw [mul_comm, Complex.mul_conj]
  refine ⟨(starRingEnd ℂ) p * (1 + δ * Complex.I), ?_, ?_, ?_⟩
  · have := d3 p p1 p2 p3
    simp; linarith
  · have e : (starRingEnd ℂ) p * (1 + δ * Complex.I) * (p / v) =
        ((Complex.normSq p / Complex.normSq v : ℝ) : ℂ) * ((1 + δ * Complex.I) * (starRingEnd ℂ) v) := by
      have : v⁻¹ = (starRingEnd ℂ) v / (Complex.normSq v : ℂ) := by
        rw [Complex.inv_def]; push_cast; ring
      rw [div_eq_mul_inv, this]
      push_cast
      linear_combination (1 + δ * Complex.I) * ((starRingEnd ℂ) v / (Complex.normSq v : ℂ)) * cc
    rw [e, Complex.re_ofReal_mul]
    refine mul_pos (by positivity) ?_
    have := d3 v v1 v2 v3
    simp; linarith
  · have e : (starRingEnd ℂ) p * (1 + δ * Complex.I) * (p * q) =
        ((Complex.normSq p : ℝ) : ℂ) * ((1 + δ * Complex.I) * q) := by
      linear_combination ((1 + δ * Complex.I) * q) * cc
    rw [e, Complex.re_ofReal_mul]
    refine mul_pos np ?_
    simp; linarith

/-- Off the negative real axis, told by a rotation. -/
theorem slit_of_rot {c w : ℂ} (hc : 0 < c.re) (h : 0 < (c * w).re) : 0 < ‖w‖ + w.re := by
  by_contra hn
  have h1 := Complex.abs_re_le_norm w
  have h2 : w.re = -‖w‖ := by
    have := abs_le.1 h1; linarith
  have h3 : w.im = 0 := by
    have := Complex.sq_norm w
    rw [Complex.normSq_apply] at this
    have : w.im * w.im = 0 := by rw [h2] at this; nlinarith
    exact mul_self_eq_zero.1 this
  rw [Complex.mul_re, h3, h2] at h
  nlinarith [norm_nonneg w]

theorem somm_mk {o : Ops} (ho : Safe o) {p v q a b c c0 Rr : ℂ} {z ρ : ℝ} (hz : 0 < z) (hρ : 0 < ρ)
    (ea : a ^ 2 = p) (eb : b ^ 2 = v) (ec : c ^ 2 = q) (p0 : p ≠ 0) (v0 : v ≠ 0)
    (hba : 0 < (b / a).re) (hκ : 0 ≤ (v / p).re) (hg : 0 < (a * c).re) (c1 : 0 < c0.re)
    (c2 : 0 < (c0 * (p / v)).re) (c3 : 0 < (c0 * (p * q)).re)
    (hR : Rr ^ 2 = (ρ : ℂ) ^ 2 + p / v * (z : ℂ) ^ 2) (pR : 0 < Rr.re) :
    Somm ((a / b) ^ 2) (a * c) (Rr * (b / a)) (csqrt c0) z ρ (fun l => gam o p v q l) := by
  have a0 : a ≠ 0 := fun e => by rw [e] at ea; simp at ea; exact p0 ea.symm
  have b0 : b ≠ 0 := fun e => by rw [e] at eb; simp at eb; exact v0 eb.symm
  have hab : (a / b) ^ 2 = p / v := by rw [div_pow, ea, eb]
  have hu : csqrt c0 ^ 2 = c0 := by rw [pow_two, csqrt_sq]
  have eR : (Rr * (b / a)) ^ 2 = (z : ℂ) ^ 2 + (ρ : ℂ) ^ 2 / (a / b) ^ 2 := by
    rw [mul_pow, hR, ← ea, ← eb]; field_simp; ring
  have c4 : ∀ l : ℝ, 0 < (c0 * (p / v * ((l : ℂ) * l) + q * p)).re := by
    intro l
    have : c0 * (p / v * ((l : ℂ) * l) + q * p) = ((l * l : ℝ) : ℂ) * (c0 * (p / v)) + c0 * (p * q) := by
      push_cast; ring
    rw [this, Complex.add_re, Complex.re_ofReal_mul]
    have := mul_nonneg (mul_self_nonneg l) c2.le
    linarith
  refine ⟨hz, hρ, by positivity, fun l _ => ?_, eR, fun l _ => ?_, hg, ?_, ?_, ?_, ?_, ?_⟩
  · simp only [gam]
    rw [pow_two, csqrt_sq, ho.div _ _ v0, hab, mul_pow, ea, ec]; ring
  · simp only [gam]
    rw [ho.div _ _ v0]
    exact csqrt_re_pos (slit_of_rot c1 (c4 l))
  · rw [mul_comm]
    refine rot_re hba ?_ pR ?_
    · rw [div_pow, ea, eb]; exact hκ
    · rw [mul_comm, eR, Complex.add_re]
      have e1 : ((z : ℂ) ^ 2).re = z ^ 2 := by rw [← Complex.ofReal_pow, Complex.ofReal_re]
      have e2 : ((ρ : ℂ) ^ 2 / (a / b) ^ 2) = ((ρ ^ 2 : ℝ) : ℂ) * (v / p) := by
        rw [hab]; push_cast; field_simp
      rw [e1, e2, Complex.re_ofReal_mul]
      have := mul_nonneg (sq_nonneg ρ) hκ
      positivity
  · exact csqrt_re_pos (by have := norm_nonneg c0; linarith)
  · rw [hu]; exact c1
  · rw [hu, hab]; exact c2
  · rw [hu, mul_pow, ea, ec]; exact c3

/-- Both polarisations of a physical medium. -/
theorem somm_medium {o : Ops} (ho : Safe o) {sqrt : ℂ → ℂ} (hq : IsSqrt sqrt) {m : Med} (hm : Physical m)
    {x y z Z : ℝ} (hZ : 0 < Z) (hz : Z ^ 2 = z ^ 2) {ρ : ℝ} (hρ : 0 < ρ) (hxy : x ^ 2 + y ^ 2 = ρ ^ 2) :
    let s := rootsOf m
    (∃ u, Somm ((s.a / s.b) ^ 2) (s.a * s.c) (Rf sqrt s.kTM x y z * (s.b / s.a)) u Z ρ
      (fun l => gam o m.etaH m.etaV m.zetaH l)) ∧
    (∃ u, Somm ((s.c / s.d) ^ 2) (s.c * s.a) (Rf sqrt s.kTE x y z * (s.d / s.c)) u Z ρ
      (fun l => gam o m.zetaH m.zetaV m.etaH l)) := by
  intro s
  have f := fits hq hm
  obtain ⟨a1, a2, a3, a4, -⟩ := octant hm.etaH.1.le hm.etaH.2 (by rw [f.eH]; exact pow_ne_zero 2 f.a0)
  obtain ⟨b1, b2, b3, b4, -⟩ := octant hm.etaV.1.le hm.etaV.2 (by rw [f.eV]; exact pow_ne_zero 2 f.b0)
  obtain ⟨c1, c2, c3, -, -⟩ := octant hm.zetaH.1 hm.zetaH.2.1 hm.zetaH.2.2
  obtain ⟨d1, d2, d3, -, -⟩ := octant hm.zetaV.1 hm.zetaV.2.1 hm.zetaV.2.2
  have a4 := a4 hm.etaH.1
  have ne : ∀ w : ℂ, 0 < w.re → w ≠ 0 := fun w h h' => by rw [h'] at h; simp at h
  have divre : ∀ v w : ℂ, 0 < v.re → 0 ≤ v.im → 0 < w.re → 0 ≤ w.im → 0 < (v / w).re := by
    intro v w h1 h2 h3 h4
    rw [Complex.div_re]
    have : 0 < Complex.normSq w := Complex.normSq_pos.2 (ne w h3)
    have : 0 < v.re * w.re / Complex.normSq w := by positivity
    have : 0 ≤ v.im * w.im / Complex.normSq w := by positivity
    linarith
  have hg : 0 < (s.a * s.c).re := by
    change 0 < (csqrt m.etaH * csqrt m.zetaH).re
    rw [Complex.mul_re]
    nlinarith [mul_le_mul_of_nonneg_left c3 a2, mul_lt_mul_of_pos_right a4 c1]
  have hpos : 0 < x ^ 2 + y ^ 2 := by rw [hxy]; positivity
  have hC : (x : ℂ) ^ 2 + (y : ℂ) ^ 2 = (ρ : ℂ) ^ 2 := by exact_mod_cast hxy
  have hzC : (Z : ℂ) ^ 2 = (z : ℂ) ^ 2 := by exact_mod_cast hz
  have rad : ∀ κ : ℂ, 0 ≤ κ.re → 0 < (Rf sqrt κ x y z).re ∧
      Rf sqrt κ x y z ^ 2 = (ρ : ℂ) ^ 2 + κ * (Z : ℂ) ^ 2 := by
    intro κ hκ
    have e : ((x : ℂ) ^ 2 + (y : ℂ) ^ 2 + κ * (z : ℂ) ^ 2).re = x ^ 2 + y ^ 2 + κ.re * z ^ 2 := by
      rw [Complex.add_re, Complex.add_re, ← Complex.ofReal_pow, ← Complex.ofReal_pow, ← Complex.ofReal_pow,
        Complex.re_mul_ofReal, Complex.ofReal_re, Complex.ofReal_re]
    have hs : (0 : ℝ) < ((x : ℂ) ^ 2 + (y : ℂ) ^ 2 + κ * (z : ℂ) ^ 2).re := by
      rw [e]; have := mul_nonneg hκ (sq_nonneg z); linarith
    constructor
    · rw [Rf, hq.main _ (Or.inl hs)]
      exact csqrt_re_pos (by have := norm_nonneg ((x : ℂ) ^ 2 + (y : ℂ) ^ 2 + κ * (z : ℂ) ^ 2); linarith)
    · rw [Rf, hq.sq, hC, hzC]
  have k1 : s.kTM = m.etaH / m.etaV := by rw [Roots.kTM, div_pow, ← f.eH, ← f.eV]
  have k2 : s.kTE = m.zetaH / m.zetaV := by rw [Roots.kTE, div_pow, ← f.zH, ← f.zV]
  obtain ⟨r1, r2⟩ := rad s.kTM (by rw [k1]; exact ratio_re hm.etaH.1.le hm.etaH.2 hm.etaV.1.le hm.etaV.2)
  obtain ⟨r3, r4⟩ := rad s.kTE (by rw [k2]; exact ratio_re hm.zetaH.1 hm.zetaH.2.1 hm.zetaV.1 hm.zetaV.2.1)
  have p0 : m.etaH ≠ 0 := by rw [f.eH]; exact pow_ne_zero 2 f.a0
  have v0 : m.etaV ≠ 0 := by rw [f.eV]; exact pow_ne_zero 2 f.b0
  constructor
  · obtain ⟨c0, h1, h2, h3⟩ := rot_tm hm.etaH hm.etaV hm.zetaH
    exact ⟨_, somm_mk ho hZ hρ f.eH.symm f.eV.symm f.zH.symm p0 v0 (divre _ _ b1 b2 a1 a2)
      (ratio_re hm.etaV.1.le hm.etaV.2 hm.etaH.1.le hm.etaH.2) hg h1 h2 h3 (by rw [r2, k1]) r1⟩
  · obtain ⟨c0, h1, h2, h3⟩ := rot_te hm.zetaH hm.zetaV hm.etaH
    exact ⟨_, somm_mk ho hZ hρ f.zH.symm f.zV.symm f.eH.symm hm.zetaH.2.2 hm.zetaV.2.2
      (divre _ _ d1 d2 c1 c2) (ratio_re hm.zetaV.1 hm.zetaV.2.1 hm.zetaH.1 hm.zetaH.2.1)
      (by rw [mul_comm]; exact hg) h1 h2 h3 (by rw [r4, k2]) r3⟩

end Verif.Lemmas
