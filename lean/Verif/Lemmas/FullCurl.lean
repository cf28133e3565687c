import Verif.Lemmas.FullClosed
import Mathlib.Analysis.Calculus.Deriv.Shift

/-!
# The columns of the fullspace solution satisfy Maxwell's equations
-/

namespace Verif.Lemmas.Full
open Complex Verif.Spec Filter Topology

variable {x y z : ℝ}

theorem HasCurl.comb {F G : Vec} {a b c a' b' c' : ℂ} (k : ℂ) (h : F.HasCurl x y z a b c)
    (h' : G.HasCurl x y z a' b' c') :
    (Vec.comb k F G).HasCurl x y z (k * (a + a')) (k * (b + b')) (k * (c + c')) := by
  obtain ⟨_, _, _, _, _, _, d1, d2, d3, d4, d5, d6, e1, e2, e3⟩ := h
  obtain ⟨_, _, _, _, _, _, d1', d2', d3', d4', d5', d6', e1', e2', e3'⟩ := h'
  refine ⟨_, _, _, _, _, _, (d1.add d1').const_mul k, (d2.add d2').const_mul k,
    (d3.add d3').const_mul k, (d4.add d4').const_mul k, (d5.add d5').const_mul k,
    (d6.add d6').const_mul k, ?_, ?_, ?_⟩
  · rw [← e1, ← e1']; ring
  · rw [← e2, ← e2']; ring
  · rw [← e3, ← e3']; ring

theorem HasCurl.smul {F : Vec} {a b c : ℂ} (k : ℂ) (h : F.HasCurl x y z a b c) :
    (Vec.smul k F).HasCurl x y z (k * a) (k * b) (k * c) := by
  obtain ⟨_, _, _, _, _, _, d1, d2, d3, d4, d5, d6, e1, e2, e3⟩ := h
  refine ⟨_, _, _, _, _, _, d1.const_mul k, d2.const_mul k, d3.const_mul k, d4.const_mul k,
    d5.const_mul k, d6.const_mul k, ?_, ?_, ?_⟩
  · rw [← e1]; ring
  · rw [← e2]; ring
  · rw [← e3]; ring

theorem HasCurl.cast {F : Vec} {a b c a' b' c' : ℂ} (h : F.HasCurl x y z a b c) (h1 : a = a')
    (h2 : b = b') (h3 : c = c') : F.HasCurl x y z a' b' c' := by
  subst h1 h2 h3; exact h

theorem teE_z (G p q : ℂ) (R : ℝ → ℝ → ℝ → ℂ) (x y z : ℝ) : (teE G p q R).z x y z = 0 := rfl
theorem tmH_z (G κ p q : ℂ) (R : ℝ → ℝ → ℝ → ℂ) (x y z : ℝ) : (tmH G κ p q R).z x y z = 0 := rfl

/-- The columns satisfy Maxwell's equations. -/
theorem col_maxwell {sqrt : ℂ → ℂ} {s : Roots} (a0 : s.a ≠ 0) (b0 : s.b ≠ 0) (c0 : s.c ≠ 0)
    (d0 : s.d ≠ 0) (r1 : Radius s.kTM (Rf sqrt s.kTM) x y z) (r2 : Radius s.kTE (Rf sqrt s.kTE) x y z)
    {b : ℕ} (hb : 1 ≤ b ∧ b ≤ 6) :
    MaxwellAt (s.a ^ 2) (s.b ^ 2) (s.c ^ 2) (s.d ^ 2) (colE sqrt s b) (colH sqrt s b) x y z := by
  have g1 : s.gTM ≠ 0 := mul_ne_zero c0 b0
  have g2 : s.gTE ≠ 0 := mul_ne_zero d0 a0
  have k1 : s.kTM ≠ 0 := pow_ne_zero _ (div_ne_zero a0 b0)
  have k2 : s.kTE ≠ 0 := pow_ne_zero _ (div_ne_zero c0 d0)
  obtain ⟨b1, b2⟩ := hb
  have tm := fun p q => HasCurl.comb (pre s) (tmH_curl (p := p) (q := q) r1 g1) (teH_curl (p := p) (q := q) r2 g2)
  have te := fun p q => HasCurl.comb (pre s * s.c ^ 2) (tmE_curl (p := p) (q := q) r1 g1)
    (teE_curl (p := p) (q := q) r2 g2 k2)
  have tm' := fun p q => HasCurl.comb (-pre s) (tmH_curl (p := p) (q := q) r2 g2) (teH_curl (p := p) (q := q) r1 g1)
  have te' := fun p q => HasCurl.comb (pre s * s.a ^ 2) (tmE_curl (p := p) (q := q) r2 g2)
    (teE_curl (p := p) (q := q) r1 g1 k1)
  interval_cases b
  · refine ⟨HasCurl.cast (tm 1 0) ?_ ?_ ?_, HasCurl.cast (te 1 0) ?_ ?_ ?_⟩ <;>
      simp only [colE, colH, Vec.comb, teE_z, tmH_z, add_zero, zero_add, neg_zero, zero_div, Roots.gTM, Roots.gTE, Roots.kTM, Roots.kTE] <;> field_simp <;> try ring
  · refine ⟨HasCurl.cast (tm 0 1) ?_ ?_ ?_, HasCurl.cast (te 0 1) ?_ ?_ ?_⟩ <;>
      simp only [colE, colH, Vec.comb, teE_z, tmH_z, add_zero, zero_add, neg_zero, zero_div, Roots.gTM, Roots.gTE, Roots.kTM, Roots.kTE] <;> field_simp <;> try ring
  · refine ⟨HasCurl.cast (HasCurl.smul (pre s) (vH_curl r1 g1))  ?_ ?_ ?_,
      HasCurl.cast (HasCurl.smul (pre s * s.c ^ 2) (vE_curl r1 g1))  ?_ ?_ ?_⟩ <;>
      simp only [colE, colH, Vec.smul, vH, Roots.gTM, Roots.gTE, Roots.kTM, Roots.kTE] <;> field_simp <;> try ring
  · refine ⟨HasCurl.cast (te' 1 0) ?_ ?_ ?_, HasCurl.cast (tm' 1 0) ?_ ?_ ?_⟩ <;>
      simp only [colE, colH, Vec.comb, teE_z, tmH_z, add_zero, zero_add, neg_zero, zero_div, Roots.gTM, Roots.gTE, Roots.kTM, Roots.kTE] <;> field_simp <;> try ring
  · refine ⟨HasCurl.cast (te' 0 1) ?_ ?_ ?_, HasCurl.cast (tm' 0 1) ?_ ?_ ?_⟩ <;>
      simp only [colE, colH, Vec.comb, teE_z, tmH_z, add_zero, zero_add, neg_zero, zero_div, Roots.gTM, Roots.gTE, Roots.kTM, Roots.kTE] <;> field_simp <;> try ring
  · refine ⟨HasCurl.cast (HasCurl.smul (pre s * s.a ^ 2) (vE_curl r2 g2))  ?_ ?_ ?_,
      HasCurl.cast (HasCurl.smul (-pre s) (vH_curl r2 g2))  ?_ ?_ ?_⟩ <;>
      simp only [colE, colH, Vec.smul, vH, Roots.gTM, Roots.gTE, Roots.kTM, Roots.kTE] <;> field_simp <;> try ring

/-- Derivative of the root along a path. -/
theorem root_deriv {sqrt : ℂ → ℂ} (hs : ∀ z, z ∈ slitPlane → sqrt z = Kernel.csqrt z) {f : ℝ → ℂ} {f' : ℂ}
    {t : ℝ} (hf : HasDerivAt f f' t) (ht : 0 < (f t).re) :
    HasDerivAt (fun u => sqrt (f u)) (f' / (2 * sqrt (f t))) t := by
  have hm : f t ∈ slitPlane := Or.inl ht
  have h0 : f t ≠ 0 := slitPlane_ne_zero hm
  have ev : (fun u => sqrt (f u)) =ᶠ[𝓝 t] fun u => Kernel.csqrt (f u) := by
    have := hf.continuousAt.eventually (isOpen_slitPlane.mem_nhds hm)
    filter_upwards [this] with u hu using hs _ hu
  have h1 : HasDerivAt (fun z : ℂ => Kernel.csqrt z) (1 / (2 * Kernel.csqrt (f t))) (f t) := by
    have := (hasDerivAt_id (f t)).cpow_const (c := 1 / 2) (by simpa using hm)
    refine this.congr_deriv ?_
    have hq := Lemmas.csqrt_sq' (f t)
    have hc : Kernel.csqrt (f t) ≠ 0 := by intro h; rw [h] at hq; exact h0 (by simpa using hq.symm)
    simp only [id, mul_one]
    rw [cpow_sub _ _ h0, cpow_one]
    change 1 / 2 * (Kernel.csqrt (f t) / f t) = _
    rw [show Kernel.csqrt (f t) / f t = 1 / Kernel.csqrt (f t) by
      rw [div_eq_div_iff h0 hc, one_mul, ← pow_two, hq]]
    rw [one_div_mul_one_div]
  refine HasDerivAt.congr_of_eventuallyEq ?_ ev
  refine (HasDerivAt.scomp t h1 hf).congr_deriv ?_
  rw [hs _ hm, smul_eq_mul]; ring

theorem radius {sqrt : ℂ → ℂ} (hs : ∀ z, z ∈ slitPlane → sqrt z = Kernel.csqrt z) {κ : ℂ} (hk : 0 ≤ κ.re)
    (h : 0 < x ^ 2 + y ^ 2) : Radius κ (Rf sqrt κ) x y z := by
  have hre : 0 < ((x : ℂ) ^ 2 + (y : ℂ) ^ 2 + κ * (z : ℂ) ^ 2).re := by
    have : ((x : ℂ) ^ 2 + (y : ℂ) ^ 2 + κ * (z : ℂ) ^ 2).re = x ^ 2 + y ^ 2 + κ.re * z ^ 2 := by
      rw [add_re, add_re, ← ofReal_pow, ← ofReal_pow, ← ofReal_pow, re_mul_ofReal, ofReal_re, ofReal_re]
    rw [this]
    have : 0 ≤ κ.re * z ^ 2 := by positivity
    linarith
  have hsq : Rf sqrt κ x y z ^ 2 = x ^ 2 + y ^ 2 + κ * z ^ 2 := by
    rw [Rf, hs _ (Or.inl hre), Lemmas.csqrt_sq']
  have hne : Rf sqrt κ x y z ≠ 0 := by
    intro h'; rw [h'] at hsq
    rw [← hsq] at hre; simp at hre
  have X := (real_deriv x).pow 2
  have Y := (real_deriv y).pow 2
  have Z := (real_deriv z).pow 2
  refine ⟨hsq, hne, ?_, ?_, ?_, ?_⟩
  · intro h'
    have : ((x ^ 2 + y ^ 2 : ℝ) : ℂ) = 0 := by push_cast; exact h'
    exact h.ne' (by exact_mod_cast this)
  · refine (root_deriv hs ((X.add_const ((y : ℂ) ^ 2)).add_const (κ * (z : ℂ) ^ 2)) hre).congr_deriv ?_
    change _ / (2 * Rf sqrt κ x y z) = _
    field_simp; simp
  · refine (root_deriv hs ((Y.const_add ((x : ℂ) ^ 2)).add_const (κ * (z : ℂ) ^ 2)) hre).congr_deriv ?_
    change _ / (2 * Rf sqrt κ x y z) = _
    field_simp; simp
  · refine (root_deriv hs ((Z.const_mul κ).const_add ((x : ℂ) ^ 2 + (y : ℂ) ^ 2)) hre).congr_deriv ?_
    change _ / (2 * Rf sqrt κ x y z) = _
    field_simp; simp; try ring

/-- The curl depends on the field near the point only; here: off the vertical axis. -/
theorem HasCurl.congr {F G : Vec} {a b c : ℂ} (hF : F.HasCurl x y z a b c) (h : 0 < x ^ 2 + y ^ 2)
    (e : ∀ u v w : ℝ, 0 < u ^ 2 + v ^ 2 → G.x u v w = F.x u v w ∧ G.y u v w = F.y u v w ∧ G.z u v w = F.z u v w) :
    G.HasCurl x y z a b c := by
  obtain ⟨_, _, _, _, _, _, d1, d2, d3, d4, d5, d6, e1, e2, e3⟩ := hF
  have nx : ∀ᶠ t in 𝓝 x, 0 < t ^ 2 + y ^ 2 :=
    (show ContinuousAt (fun t : ℝ => t ^ 2 + y ^ 2) x by fun_prop).eventually (lt_mem_nhds h)
  have ny : ∀ᶠ t in 𝓝 y, 0 < x ^ 2 + t ^ 2 :=
    (show ContinuousAt (fun t : ℝ => x ^ 2 + t ^ 2) y by fun_prop).eventually (lt_mem_nhds h)
  refine ⟨_, _, _, _, _, _, d1.congr_of_eventuallyEq ?_, d2.congr_of_eventuallyEq ?_,
    d3.congr_of_eventuallyEq ?_, d4.congr_of_eventuallyEq ?_, d5.congr_of_eventuallyEq ?_,
    d6.congr_of_eventuallyEq ?_, e1, e2, e3⟩
  · filter_upwards [ny] with t ht using (e _ _ _ ht).2.2
  · exact Eventually.of_forall fun t => (e x y t h).2.1
  · exact Eventually.of_forall fun t => (e x y t h).1
  · filter_upwards [nx] with t ht using (e _ _ _ ht).2.2
  · filter_upwards [nx] with t ht using (e _ _ _ ht).2.1
  · filter_upwards [ny] with t ht using (e _ _ _ ht).1

/-- A field moved downwards. -/
def _root_.Verif.Spec.Vec.lower (F : Vec) (z0 : ℝ) : Vec :=
  ⟨fun x y z => F.x x y (z - z0), fun x y z => F.y x y (z - z0), fun x y z => F.z x y (z - z0)⟩

theorem HasCurl.lower {F : Vec} {a b c : ℂ} {z0 : ℝ} (hF : F.HasCurl x y (z - z0) a b c) :
    (F.lower z0).HasCurl x y z a b c := by
  obtain ⟨_, _, _, _, _, _, d1, d2, d3, d4, d5, d6, e1, e2, e3⟩ := hF
  exact ⟨_, _, _, _, _, _, d1, d2.comp_sub_const z z0, d3.comp_sub_const z z0, d4, d5, d6, e1, e2, e3⟩

end Verif.Lemmas.Full
