import Verif.Lemmas.Unique

/-! Helper lemmas: Lagrange identity of two fields of the 1-D Maxwell problem (reciprocity). -/

namespace Verif.Lemmas
open Verif.Spec Verif.Spec.Stack Complex Filter Topology Set

/-- A function that is locally constant off a finite set, continuous off `z1 ≤ z2`, and vanishes
at ±∞: its one-sided limits. -/
theorem jumps_sum {g : ℝ → ℂ} (S : Finset ℝ) {z1 z2 : ℝ} (h12 : z1 ≤ z2) {L1 R1 L2 R2 : ℂ}
    (hc : ∀ z, z ≠ z1 → z ≠ z2 → ContinuousAt g z)
    (hd : ∀ z, z ≠ z1 → z ≠ z2 → z ∉ S → HasDerivAt g 0 z)
    (hl1 : Tendsto g (𝓝[<] z1) (𝓝 L1)) (hr1 : Tendsto g (𝓝[>] z1) (𝓝 R1))
    (hl2 : Tendsto g (𝓝[<] z2) (𝓝 L2)) (hr2 : Tendsto g (𝓝[>] z2) (𝓝 R2))
    (hb : Tendsto g atBot (𝓝 0)) (ht : Tendsto g atTop (𝓝 0)) :
    L1 = 0 ∧ R2 = 0 ∧ (z1 < z2 → R1 = L2) := by
  refine ⟨?_, ?_, ?_⟩
  · have hcst := const_of_finite S (convex_Iio z1) (g := g)
      (fun z hz => (hc z (ne_of_lt hz) (ne_of_lt (lt_of_lt_of_le hz h12))).continuousWithinAt)
      (fun z hz hS => by
        rw [interior_Iio] at hz
        exact hd z (ne_of_lt hz) (ne_of_lt (lt_of_lt_of_le hz h12)) hS)
    have hz : ∀ z ∈ Iio z1, g z = 0 := by
      intro z hz
      have h1 : Tendsto g atBot (𝓝 (g z)) := by
        refine tendsto_const_nhds.congr' ?_
        filter_upwards [Iio_mem_atBot z1] with x hx
        exact hcst z hz x hx
      exact tendsto_nhds_unique h1 hb
    have h0 : Tendsto g (𝓝[<] z1) (𝓝 0) := by
      refine tendsto_const_nhds.congr' ?_
      filter_upwards [self_mem_nhdsWithin] with x hx
      exact (hz x hx).symm
    exact tendsto_nhds_unique hl1 h0
  · have hcst := const_of_finite S (convex_Ioi z2) (g := g)
      (fun z hz => (hc z (ne_of_gt (lt_of_le_of_lt h12 hz)) (ne_of_gt hz)).continuousWithinAt)
      (fun z hz hS => by
        rw [interior_Ioi] at hz
        exact hd z (ne_of_gt (lt_of_le_of_lt h12 hz)) (ne_of_gt hz) hS)
    have hz : ∀ z ∈ Ioi z2, g z = 0 := by
      intro z hz
      have h1 : Tendsto g atTop (𝓝 (g z)) := by
        refine tendsto_const_nhds.congr' ?_
        filter_upwards [Ioi_mem_atTop z2] with x hx
        exact hcst z hz x hx
      exact tendsto_nhds_unique h1 ht
    have h0 : Tendsto g (𝓝[>] z2) (𝓝 0) := by
      refine tendsto_const_nhds.congr' ?_
      filter_upwards [self_mem_nhdsWithin] with x hx
      exact (hz x hx).symm
    exact tendsto_nhds_unique hr2 h0
  · intro hlt
    have hcst := const_of_finite S (convex_Ioo z1 z2) (g := g)
      (fun z hz => (hc z (ne_of_gt hz.1) (ne_of_lt hz.2)).continuousWithinAt)
      (fun z hz hS => by
        rw [interior_Ioo] at hz
        exact hd z (ne_of_gt hz.1) (ne_of_lt hz.2) hS)
    obtain ⟨m, hm⟩ := exists_between hlt
    have h1 : Tendsto g (𝓝[>] z1) (𝓝 (g m)) := by
      refine tendsto_const_nhds.congr' ?_
      filter_upwards [Ioo_mem_nhdsGT hlt] with x hx
      exact hcst m hm x hx
    have h2 : Tendsto g (𝓝[<] z2) (𝓝 (g m)) := by
      refine tendsto_const_nhds.congr' ?_
      filter_upwards [Ioo_mem_nhdsLT hlt] with x hx
      exact hcst m hm x hx
    rw [tendsto_nhds_unique hr1 h1, tendsto_nhds_unique hl2 h2]

variable {M : Stack}

theorem field_deriv_off (hn : 0 < M.n) {zs : ℝ} {jA jB : ℂ} {A B : ℝ → ℂ}
    (h : M.IsField zs jA jB A B) {z : ℝ} (hz : z ≠ zs) (hS : z ∉ ifaces M) :
    ∃ i, M.InOpen i z ∧ HasDerivAt A (M.e i * B z) z ∧ HasDerivAt B (M.q i * A z) z := by
  obtain ⟨i, hi⟩ := exists_open hn (fun hi => hS (mem_ifaces.2 hi))
  exact ⟨i, hi, h.odeA i z hi hz, h.odeB i z hi hz⟩

theorem lagrange_le (hn : 0 < M.n) {z1 z2 : ℝ} (h12 : z1 ≤ z2) {jA1 jB1 jA2 jB2 : ℂ}
    {A1 B1 A2 B2 : ℝ → ℂ} (h1 : M.IsField z1 jA1 jB1 A1 B1) (h2 : M.IsField z2 jA2 jB2 A2 B2) :
    jA1 * B2 z1 - jB1 * A2 z1 = jA2 * B1 z2 - jB2 * A1 z2 := by
  let g : ℝ → ℂ := fun z => A1 z * B2 z - A2 z * B1 z
  have hc : ∀ z, z ≠ z1 → z ≠ z2 → ContinuousAt g z := by
    intro z hz1 hz2
    have a := field_continuousAt hn h1 hz1
    have b := field_continuousAt hn h2 hz2
    exact (a.1.mul b.2).sub (b.1.mul a.2)
  have hd : ∀ z, z ≠ z1 → z ≠ z2 → z ∉ ifaces M → HasDerivAt g 0 z := by
    intro z hz1 hz2 hS
    obtain ⟨i, hi⟩ := exists_open hn (fun hi => hS (mem_ifaces.2 hi))
    have a := h1.odeA i z hi hz1
    have a' := h1.odeB i z hi hz1
    have b := h2.odeA i z hi hz2
    have b' := h2.odeB i z hi hz2
    exact ((a.mul b').sub (b.mul a')).congr_deriv (by ring)
  have hb : Tendsto g atBot (𝓝 0) := by
    have := (h1.decayA.2.mul h2.decayB.2).sub (h2.decayA.2.mul h1.decayB.2)
    simpa using this
  have ht : Tendsto g atTop (𝓝 0) := by
    have := (h1.decayA.1.mul h2.decayB.1).sub (h2.decayA.1.mul h1.decayB.1)
    simpa using this
  rcases h12.lt_or_eq with hlt | heq
  · have c2 := field_continuousAt hn h2 (ne_of_lt hlt)
    have c1 := field_continuousAt hn h1 (ne_of_gt hlt)
    have l2A := c2.1.tendsto.mono_left (nhdsWithin_le_nhds (s := Iio z1))
    have l2B := c2.2.tendsto.mono_left (nhdsWithin_le_nhds (s := Iio z1))
    have r2A := c2.1.tendsto.mono_left (nhdsWithin_le_nhds (s := Ioi z1))
    have r2B := c2.2.tendsto.mono_left (nhdsWithin_le_nhds (s := Ioi z1))
    have l1A := c1.1.tendsto.mono_left (nhdsWithin_le_nhds (s := Iio z2))
    have l1B := c1.2.tendsto.mono_left (nhdsWithin_le_nhds (s := Iio z2))
    have r1A := c1.1.tendsto.mono_left (nhdsWithin_le_nhds (s := Ioi z2))
    have r1B := c1.2.tendsto.mono_left (nhdsWithin_le_nhds (s := Ioi z2))
    obtain ⟨e1, e2, e3⟩ := jumps_sum (g := g) (ifaces M) h12 hc hd
      ((h1.jumpA.1.mul l2B).sub (l2A.mul h1.jumpB.1))
      ((h1.jumpA.2.mul r2B).sub (r2A.mul h1.jumpB.2))
      ((l1A.mul h2.jumpB.1).sub (h2.jumpA.1.mul l1B))
      ((r1A.mul h2.jumpB.2).sub (h2.jumpA.2.mul r1B)) hb ht
    have e3 := e3 hlt
    linear_combination e3 - e1 + e2
  · subst heq
    obtain ⟨e1, e2, -⟩ := jumps_sum (g := g) (ifaces M) (le_refl z1) hc hd
      ((h1.jumpA.1.mul h2.jumpB.1).sub (h2.jumpA.1.mul h1.jumpB.1))
      ((h1.jumpA.2.mul h2.jumpB.2).sub (h2.jumpA.2.mul h1.jumpB.2))
      ((h1.jumpA.1.mul h2.jumpB.1).sub (h2.jumpA.1.mul h1.jumpB.1))
      ((h1.jumpA.2.mul h2.jumpB.2).sub (h2.jumpA.2.mul h1.jumpB.2)) hb ht
    linear_combination e2 - e1

/-- Reciprocity of the 1-D problem: two fields with sources at `z1` and `z2`. -/
theorem lagrange (hn : 0 < M.n) {z1 z2 : ℝ} {jA1 jB1 jA2 jB2 : ℂ}
    {A1 B1 A2 B2 : ℝ → ℂ} (h1 : M.IsField z1 jA1 jB1 A1 B1) (h2 : M.IsField z2 jA2 jB2 A2 B2) :
    jA1 * B2 z1 - jB1 * A2 z1 = jA2 * B1 z2 - jB2 * A1 z2 := by
  rcases le_total z1 z2 with h | h
  · exact lagrange_le hn h h1 h2
  · exact (lagrange_le hn h h2 h1).symm

end Verif.Lemmas
