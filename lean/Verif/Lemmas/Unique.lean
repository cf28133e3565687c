import Verif.Lemmas.Passive
import Mathlib.Topology.Algebra.Order.LiminfLimsup
import Mathlib.Topology.Instances.Real.Lemmas
import Mathlib.Topology.Algebra.Module.Cardinality

/-! Helper lemmas: layers, piecewise monotonicity, uniqueness of the 1-D Maxwell field. -/

namespace Verif.Lemmas
open Verif.Spec Verif.Spec.Stack Complex Filter Topology Set

variable {M : Stack}

theorem exists_left (hn : 0 < M.n) (z : ℝ) :
    ∃ i, 0 ≤ i ∧ i < M.n ∧ (i ≠ 0 → M.D i < z) ∧ (i ≠ M.n - 1 → z ≤ M.D (i + 1)) := by
  classical
  let S := (Finset.Icc 0 (M.n - 1)).filter (fun i => i = 0 ∨ M.D i < z)
  have h0 : (0 : ℤ) ∈ S := by simp [S]; omega
  have hS : S.Nonempty := ⟨0, h0⟩
  refine ⟨S.max' hS, ?_, ?_, ?_, ?_⟩
  · exact S.le_max' _ h0
  · have := S.max'_mem hS; rw [Finset.mem_filter, Finset.mem_Icc] at this; omega
  · intro h
    have := S.max'_mem hS
    rw [Finset.mem_filter] at this
    exact this.2.resolve_left h
  · intro h
    by_contra hc
    push Not at hc
    have hm := S.max'_mem hS
    rw [Finset.mem_filter, Finset.mem_Icc] at hm
    have : S.max' hS + 1 ∈ S := by
      rw [Finset.mem_filter, Finset.mem_Icc]
      exact ⟨⟨by omega, by omega⟩, Or.inr hc⟩
    have := S.le_max' _ this
    omega

theorem exists_right (hn : 0 < M.n) (z : ℝ) :
    ∃ i, 0 ≤ i ∧ i < M.n ∧ (i ≠ 0 → M.D i ≤ z) ∧ (i ≠ M.n - 1 → z < M.D (i + 1)) := by
  classical
  let S := (Finset.Icc 0 (M.n - 1)).filter (fun i => i = 0 ∨ M.D i ≤ z)
  have h0 : (0 : ℤ) ∈ S := by simp [S]; omega
  have hS : S.Nonempty := ⟨0, h0⟩
  refine ⟨S.max' hS, ?_, ?_, ?_, ?_⟩
  · exact S.le_max' _ h0
  · have := S.max'_mem hS; rw [Finset.mem_filter, Finset.mem_Icc] at this; omega
  · intro h
    have := S.max'_mem hS
    rw [Finset.mem_filter] at this
    exact this.2.resolve_left h
  · intro h
    by_contra hc
    push Not at hc
    have hm := S.max'_mem hS
    rw [Finset.mem_filter, Finset.mem_Icc] at hm
    have : S.max' hS + 1 ∈ S := by
      rw [Finset.mem_filter, Finset.mem_Icc]
      exact ⟨⟨by omega, by omega⟩, Or.inr hc⟩
    have := S.le_max' _ this
    omega

theorem exists_open (hn : 0 < M.n) {z : ℝ} (hz : ¬ M.IsInterface z) : ∃ i, M.InOpen i z := by
  obtain ⟨i, h0, h1, h2, h3⟩ := exists_left hn z
  refine ⟨i, h0, h1, h2, fun h => lt_of_le_of_ne (h3 h) fun he => hz ?_⟩
  exact ⟨i + 1, by omega, by omega, he⟩

theorem isOpen_inOpen (i : ℤ) : IsOpen {z | M.InOpen i z} := by
  simp only [InOpen, Set.ofPred_and]
  refine isOpen_const.inter (isOpen_const.inter (IsOpen.inter ?_ ?_))
  · by_cases h : i = 0
    · simp [h]
    · simp only [ne_eq, h, not_false_eq_true, forall_const]; exact isOpen_Ioi
  · by_cases h : i = M.n - 1
    · simp [h]
    · simp only [ne_eq, h, not_false_eq_true, forall_const]; exact isOpen_Iio

/-- The interfaces as a finite set. -/
noncomputable def ifaces (M : Stack) : Finset ℝ := (Finset.Ico 1 M.n).image M.D

theorem mem_ifaces {z : ℝ} : z ∈ ifaces M ↔ M.IsInterface z := by
  simp only [ifaces, Finset.mem_image, Finset.mem_Ico, IsInterface]
  constructor
  · rintro ⟨i, ⟨a, b⟩, rfl⟩; exact ⟨i, a, b, rfl⟩
  · rintro ⟨i, a, b, rfl⟩; exact ⟨i, ⟨a, b⟩, rfl⟩

/-- A continuous function with non-negative derivative off a finite set is monotone. -/
theorem monotoneOn_of_finite (S : Finset ℝ) : ∀ (s : Set ℝ), Convex ℝ s → ∀ (g g' : ℝ → ℝ),
    ContinuousOn g s → (∀ x ∈ interior s, x ∉ S → HasDerivAt g (g' x) x ∧ 0 ≤ g' x) →
    MonotoneOn g s := by
  induction S using Finset.induction_on with
  | empty =>
    intro s hs g g' hc hd
    exact monotoneOn_of_hasDerivWithinAt_nonneg hs hc
      (fun x hx => ((hd x hx (by simp)).1).hasDerivWithinAt) (fun x hx => (hd x hx (by simp)).2)
  | insert x S hx ih =>
    intro s hs g g' hc hd
    by_cases hxs : x ∈ s
    · have h1 : MonotoneOn g (s ∩ Iic x) := by
        apply ih _ (hs.inter (convex_Iic x)) g g' (hc.mono inter_subset_left)
        intro y hy hyS
        rw [interior_inter, interior_Iic] at hy
        refine hd y hy.1 ?_
        simp only [Finset.mem_insert, not_or]
        exact ⟨(ne_of_lt hy.2), hyS⟩
      have h2 : MonotoneOn g (s ∩ Ici x) := by
        apply ih _ (hs.inter (convex_Ici x)) g g' (hc.mono inter_subset_left)
        intro y hy hyS
        rw [interior_inter, interior_Ici] at hy
        refine hd y hy.1 ?_
        simp only [Finset.mem_insert, not_or]
        exact ⟨(ne_of_gt hy.2), hyS⟩
      intro a ha b hb hab
      rcases le_total a x with hax | hax
      · rcases le_total b x with hbx | hbx
        · exact h1 ⟨ha, hax⟩ ⟨hb, hbx⟩ hab
        · exact (h1 ⟨ha, hax⟩ ⟨hxs, le_refl x⟩ hax).trans (h2 ⟨hxs, le_refl x⟩ ⟨hb, hbx⟩ hbx)
      · exact h2 ⟨ha, hax⟩ ⟨hb, hax.trans hab⟩ hab
    · apply ih s hs g g' hc
      intro y hy hyS
      refine hd y hy ?_
      simp only [Finset.mem_insert, not_or]
      exact ⟨fun h => hxs (h ▸ interior_subset hy), hyS⟩

/-- A continuous function with vanishing derivative off a finite set is constant. -/
theorem const_of_finite (S : Finset ℝ) {s : Set ℝ} (hs : Convex ℝ s) {g : ℝ → ℂ}
    (hc : ContinuousOn g s) (hd : ∀ x ∈ interior s, x ∉ S → HasDerivAt g 0 x) :
    ∀ a ∈ s, ∀ b ∈ s, g a = g b := by
  have key : ∀ (L : ℂ →L[ℝ] ℝ) a, a ∈ s → ∀ b, b ∈ s → a ≤ b → L (g a) = L (g b) := by
    intro L a ha b hb hab
    have m1 : MonotoneOn (fun x => L (g x)) s := by
      apply monotoneOn_of_finite S s hs _ (fun _ => 0) (L.continuous.comp_continuousOn hc)
      intro x hx hxS
      have := L.hasFDerivAt.comp_hasDerivAt x (hd x hx hxS)
      exact ⟨by simpa using this, le_refl _⟩
    have m2 : MonotoneOn (fun x => -L (g x)) s := by
      apply monotoneOn_of_finite S s hs _ (fun _ => 0) (L.continuous.comp_continuousOn hc).neg
      intro x hx hxS
      have := (L.hasFDerivAt.comp_hasDerivAt x (hd x hx hxS)).neg
      exact ⟨by simpa using this, le_refl _⟩
    have := m1 ha hb hab
    have := m2 ha hb hab
    simp only at *
    linarith
  intro a ha b hb
  rcases le_total a b with h | h
  · exact Complex.ext (key Complex.reCLM a ha b hb h) (key Complex.imCLM a ha b hb h)
  · exact Complex.ext (key Complex.reCLM b hb a ha h).symm (key Complex.imCLM b hb a ha h).symm

/-- A field without jump is continuous everywhere. -/
theorem field_continuousAt (hn : 0 < M.n) {zs : ℝ} {jA jB : ℂ} {A B : ℝ → ℂ}
    (h : M.IsField zs jA jB A B) {z : ℝ} (hz : z ≠ zs) : ContinuousAt A z ∧ ContinuousAt B z := by
  by_cases hi : M.IsInterface z
  · exact ⟨h.contA z hi hz, h.contB z hi hz⟩
  · obtain ⟨i, hi⟩ := exists_open hn hi
    exact ⟨(h.odeA i z hi hz).continuousAt, (h.odeB i z hi hz).continuousAt⟩

theorem field_sub {zs : ℝ} {jA jB jA' jB' : ℂ} {A B A' B' : ℝ → ℂ}
    (h : M.IsField zs jA jB A B) (h' : M.IsField zs jA' jB' A' B') :
    M.IsField zs (jA - jA') (jB - jB') (fun z => A z - A' z) (fun z => B z - B' z) where
  odeA i z hi hz := ((h.odeA i z hi hz).sub (h'.odeA i z hi hz)).congr_deriv (by ring)
  odeB i z hi hz := ((h.odeB i z hi hz).sub (h'.odeB i z hi hz)).congr_deriv (by ring)
  contA z hi hz := (h.contA z hi hz).sub (h'.contA z hi hz)
  contB z hi hz := (h.contB z hi hz).sub (h'.contB z hi hz)
  jumpA := ⟨by convert h.jumpA.1.sub h'.jumpA.1 using 2; ring,
    by convert h.jumpA.2.sub h'.jumpA.2 using 2; ring⟩
  jumpB := ⟨by convert h.jumpB.1.sub h'.jumpB.1 using 2; ring,
    by convert h.jumpB.2.sub h'.jumpB.2 using 2; ring⟩
  decayA := ⟨by simpa using h.decayA.1.sub h'.decayA.1, by simpa using h.decayA.2.sub h'.decayA.2⟩
  decayB := ⟨by simpa using h.decayB.1.sub h'.decayB.1, by simpa using h.decayB.2.sub h'.decayB.2⟩

theorem field_smul {zs : ℝ} {jA jB : ℂ} {A B : ℝ → ℂ} (c : ℂ)
    (h : M.IsField zs jA jB A B) :
    M.IsField zs (c * jA) (c * jB) (fun z => c * A z) (fun z => c * B z) where
  odeA i z hi hz := ((h.odeA i z hi hz).const_mul c).congr_deriv (by ring)
  odeB i z hi hz := ((h.odeB i z hi hz).const_mul c).congr_deriv (by ring)
  contA z hi hz := (h.contA z hi hz).const_mul c
  contB z hi hz := (h.contB z hi hz).const_mul c
  jumpA := ⟨by convert h.jumpA.1.const_mul c using 2; ring,
    by convert h.jumpA.2.const_mul c using 2; ring⟩
  jumpB := ⟨by convert h.jumpB.1.const_mul c using 2; ring,
    by convert h.jumpB.2.const_mul c using 2; ring⟩
  decayA := ⟨by simpa using h.decayA.1.const_mul c, by simpa using h.decayA.2.const_mul c⟩
  decayB := ⟨by simpa using h.decayB.1.const_mul c, by simpa using h.decayB.2.const_mul c⟩

theorem tendsto_zero_mono {F : ℝ → ℝ} (hm : Monotone F) (h1 : Tendsto F atTop (𝓝 0))
    (h2 : Tendsto F atBot (𝓝 0)) (z : ℝ) : F z = 0 := by
  apply le_antisymm
  · exact hm.ge_of_tendsto h1 z
  · exact hm.le_of_tendsto h2 z

/-- Source-free fields vanish (energy argument). -/
theorem field_zero (hn : 0 < M.n) (hp : M.Passive) {zs : ℝ} {A B : ℝ → ℂ}
    (h : M.IsField zs 0 0 A B) : (∀ z, A z = 0) ∧ (∀ z, B z = 0) := by
  have hcont : ∀ z, ContinuousAt A z ∧ ContinuousAt B z := by
    intro z
    by_cases hz : z = zs
    · subst hz
      have a1 := h.jumpA; have b1 := h.jumpB
      simp only [zero_div, sub_zero, add_zero] at a1 b1
      constructor
      · rw [continuousAt_iff_continuous_left'_right']; exact a1
      · rw [continuousAt_iff_continuous_left'_right']; exact b1
    · exact field_continuousAt hn h hz
  have cA : Continuous A := continuous_iff_continuousAt.2 fun z => (hcont z).1
  have cB : Continuous B := continuous_iff_continuousAt.2 fun z => (hcont z).2
  classical
  let S : Finset ℝ := insert zs (ifaces M)
  have hS : ∀ z, z ∉ S → z ≠ zs ∧ ∃ i, M.InOpen i z := by
    intro z hz
    simp only [S, Finset.mem_insert, not_or] at hz
    exact ⟨hz.1, exists_open hn (fun hi => hz.2 (mem_ifaces.2 hi))⟩
  let F : ℝ → ℝ := fun x => ((starRingEnd ℂ) (A x) * B x).re
  have hF : ∀ i z, M.InOpen i z → z ≠ zs →
      HasDerivAt F ((M.e i).re * Complex.normSq (B z) + (M.q i).re * Complex.normSq (A z)) z := by
    intro i z hi hz
    have h1 := ((h.odeA i z hi hz).star).mul (h.odeB i z hi hz)
    have h2 := Complex.reCLM.hasFDerivAt.comp_hasDerivAt z h1
    refine h2.congr_deriv ?_
    simp only [Complex.reCLM_apply, star_def, map_mul, Complex.add_re, Complex.mul_re,
      Complex.mul_im, Complex.conj_re, Complex.conj_im, Complex.normSq_apply]
    ring
  have hFc : Continuous F :=
    Complex.continuous_re.comp ((Complex.continuous_conj.comp cA).mul cB)
  have hF0 : ∀ z, F z = 0 := by
    have hmono : Monotone F := by
      rw [← monotoneOn_univ]
      choose! lay hlay using fun z hz => (hS z hz).2
      apply monotoneOn_of_finite S univ convex_univ F
        (fun z => (M.e (lay z)).re * Complex.normSq (B z) + (M.q (lay z)).re * Complex.normSq (A z))
        hFc.continuousOn
      intro z _ hz
      have hi := hlay z hz
      have p := hp _ hi.1 hi.2.1
      exact ⟨hF _ z hi (hS z hz).1, add_nonneg (mul_nonneg p.e_re (Complex.normSq_nonneg _))
        (mul_nonneg p.q_re (Complex.normSq_nonneg _))⟩
    have lim : ∀ l : Filter ℝ, Tendsto A l (𝓝 0) → Tendsto B l (𝓝 0) → Tendsto F l (𝓝 0) := by
      intro l ha hb
      have : Tendsto (fun x => (starRingEnd ℂ) (A x) * B x) l (𝓝 ((starRingEnd ℂ) 0 * 0)) :=
        ((Complex.continuous_conj.tendsto 0).comp ha).mul hb
      have := (Complex.continuous_re.tendsto _).comp this
      simp only [map_zero, mul_zero, Complex.zero_re] at this
      exact this
    exact tendsto_zero_mono hmono (lim _ h.decayA.1 h.decayB.1) (lim _ h.decayA.2 h.decayB.2)
  have hpt : ∀ i z, M.InOpen i z → z ≠ zs →
      (M.e i).re * Complex.normSq (B z) + (M.q i).re * Complex.normSq (A z) = 0 := by
    intro i z hi hz
    have h1 := hF i z hi hz
    have h2 : HasDerivAt F 0 z := by
      have : F = fun _ => 0 := funext hF0
      rw [this]; exact hasDerivAt_const _ _
    exact h1.unique h2
  have hev : ∀ i z, M.InOpen i z → z ≠ zs → ∀ᶠ x in 𝓝 z, M.InOpen i x ∧ x ≠ zs := by
    intro i z hi hz
    exact ((isOpen_inOpen i).eventually_mem hi).and (isOpen_ne.eventually_mem hz)
  have hzero : ∀ i z, M.InOpen i z → z ≠ zs → A z = 0 ∧ B z = 0 := by
    intro i z hi hz
    have p := hp _ hi.1 hi.2.1
    rcases p.loss with hl | hl
    · have hB : ∀ x, M.InOpen i x → x ≠ zs → B x = 0 := by
        intro x hx hxz
        have := hpt i x hx hxz
        have a1 := mul_nonneg p.e_re (Complex.normSq_nonneg (B x))
        have a2 := mul_nonneg p.q_re (Complex.normSq_nonneg (A x))
        have : (M.e i).re * Complex.normSq (B x) = 0 := by linarith
        rcases mul_eq_zero.1 this with h | h
        · exact absurd h hl.ne'
        · exact Complex.normSq_eq_zero.1 h
      refine ⟨?_, hB z hi hz⟩
      have h1 := h.odeB i z hi hz
      have h2 : HasDerivAt B 0 z := by
        refine (hasDerivAt_const z (0 : ℂ)).congr_of_eventuallyEq ?_
        filter_upwards [hev i z hi hz] with x hx using hB x hx.1 hx.2
      have := h1.unique h2
      exact (mul_eq_zero.1 this).resolve_left p.q_ne
    · have hA : ∀ x, M.InOpen i x → x ≠ zs → A x = 0 := by
        intro x hx hxz
        have := hpt i x hx hxz
        have a1 := mul_nonneg p.e_re (Complex.normSq_nonneg (B x))
        have a2 := mul_nonneg p.q_re (Complex.normSq_nonneg (A x))
        have : (M.q i).re * Complex.normSq (A x) = 0 := by linarith
        rcases mul_eq_zero.1 this with h | h
        · exact absurd h hl.ne'
        · exact Complex.normSq_eq_zero.1 h
      refine ⟨hA z hi hz, ?_⟩
      have h1 := h.odeA i z hi hz
      have h2 : HasDerivAt A 0 z := by
        refine (hasDerivAt_const z (0 : ℂ)).congr_of_eventuallyEq ?_
        filter_upwards [hev i z hi hz] with x hx using hA x hx.1 hx.2
      have := h1.unique h2
      exact (mul_eq_zero.1 this).resolve_left p.e_ne
  have hdense : Dense ((S : Set ℝ)ᶜ) := Set.Countable.dense_compl ℝ S.countable_toSet
  constructor
  · have : A = fun _ => 0 := by
      apply cA.ext_on hdense continuous_const
      intro z hz
      obtain ⟨hz1, i, hi⟩ := hS z (by simpa using hz)
      exact (hzero i z hi hz1).1
    exact fun z => congrFun this z
  · have : B = fun _ => 0 := by
      apply cB.ext_on hdense continuous_const
      intro z hz
      obtain ⟨hz1, i, hi⟩ := hS z (by simpa using hz)
      exact (hzero i z hi hz1).2
    exact fun z => congrFun this z

/-- Uniqueness of the field of a point source in a passive stack. -/
theorem field_unique (hn : 0 < M.n) (hp : M.Passive) {zs : ℝ} {jA jB : ℂ} {A B A' B' : ℝ → ℂ}
    (h : M.IsField zs jA jB A B) (h' : M.IsField zs jA jB A' B') :
    (∀ z, A z = A' z) ∧ (∀ z, B z = B' z) := by
  have := field_sub h h'
  rw [sub_self, sub_self] at this
  obtain ⟨a, b⟩ := field_zero hn hp this
  exact ⟨fun z => sub_eq_zero.1 (a z), fun z => sub_eq_zero.1 (b z)⟩

end Verif.Lemmas
