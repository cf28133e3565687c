import Verif.Lemmas.Explicit

/-! Helper lemmas: the explicit layer solutions paste to a field in the sense of the
specification (existence). -/

namespace Verif.Lemmas
open Verif.Spec Verif.Spec.Stack Complex Filter Topology Set

variable {M : Stack} {G : ℤ → ℂ}

theorem mono_le (ho : M.Ordered) {i j : ℤ} (h1 : 1 ≤ i) (hij : i ≤ j) (hj : j < M.n) :
    M.D i ≤ M.D j := by
  induction j, hij using Int.leInduction with
  | base => exact le_refl _
  | succ j hij ih => exact (ih (by omega)).trans (ho.mono j (by omega) (by omega))

/-- layer-wise functions that match at the interfaces agree wherever two layers overlap -/
theorem consistent (ho : M.Ordered) {f : ℤ → ℝ → ℂ} {lo hi : ℤ} (hlo : 0 ≤ lo) (hhi : hi < M.n)
    (hm : ∀ i, lo ≤ i → i + 1 ≤ hi → f i (M.D (i + 1)) = f (i + 1) (M.D (i + 1)))
    {i j : ℤ} {z : ℝ} (h1 : lo ≤ i) (h2 : i ≤ hi) (h3 : lo ≤ j) (h4 : j ≤ hi)
    (hi' : M.InClosed i z) (hj' : M.InClosed j z) : f i z = f j z := by
  have key2 : ∀ (i j : ℤ), lo ≤ i → i ≤ j → j ≤ hi → M.InClosed i z → M.InClosed j z →
      f i z = f j z := by
    intro i j hlo' hij
    induction j, hij using Int.leInduction with
    | base => intros; rfl
    | succ j hij ih =>
      intro hj hci hc
      have hz1 : M.D (j + 1) ≤ z := hc.2.2.1 (by omega)
      have hz2 : z ≤ M.D (i + 1) := hci.2.2.2 (by omega)
      have hz3 : M.D (i + 1) ≤ M.D (j + 1) := mono_le ho (by omega) (by omega) (by omega)
      have hz : z = M.D (j + 1) := le_antisymm (hz2.trans hz3) hz1
      have hcj : M.InClosed j z := by
        refine ⟨by omega, by omega, fun hj0 => ?_, fun _ => hz.le⟩
        rw [hz]
        exact mono_le ho (by omega) (by omega) (by omega)
      rw [ih (by omega) hci hcj, hz]
      exact hm j (by omega) hj
  rcases le_total i j with h | h
  · exact key2 i j h1 h h4 hi' hj'
  · exact (key2 j i h3 h h2 hj' hi').symm

theorem inOpen_inClosed {i : ℤ} {z : ℝ} (h : M.InOpen i z) : M.InClosed i z :=
  ⟨h.1, h.2.1, fun a => (h.2.2.1 a).le, fun a => (h.2.2.2 a).le⟩

/-- `F` restricted to the open region `U` is given layer-wise by `f`. -/
def Pasted (M : Stack) (U : Set ℝ) (F : ℝ → ℂ) (f : ℤ → ℝ → ℂ) : Prop :=
  ∀ i z, z ∈ U → M.InClosed i z → F z = f i z

theorem Pasted.hasDerivAt {U : Set ℝ} (hU : IsOpen U) {F : ℝ → ℂ} {f : ℤ → ℝ → ℂ}
    (hp : Pasted M U F f) {i : ℤ} {z : ℝ} (hi : M.InOpen i z) (hz : z ∈ U) {c : ℂ}
    (hd : HasDerivAt (f i) c z) : HasDerivAt F c z := by
  refine hd.congr_of_eventuallyEq ?_
  filter_upwards [(isOpen_inOpen i).eventually_mem hi, hU.eventually_mem hz] with x hx hxU
  exact hp i x hxU (inOpen_inClosed hx)

theorem left_eventually (hn : 0 < M.n) (z : ℝ) :
    ∃ i, M.InClosed i z ∧ ∀ᶠ x in 𝓝[<] z, M.InClosed i x := by
  obtain ⟨i, h0, h1, h2, h3⟩ := exists_left hn z
  refine ⟨i, ⟨h0, h1, fun h => (h2 h).le, h3⟩, ?_⟩
  have ev : ∀ᶠ x in 𝓝[<] z, (i ≠ 0 → M.D i < x) := by
    by_cases h : i = 0
    · simp [h]
    · have : ∀ᶠ x in 𝓝[<] z, M.D i < x := (eventually_gt_nhds (h2 h)).filter_mono nhdsWithin_le_nhds
      filter_upwards [this] with x hx _ using hx
  filter_upwards [ev, self_mem_nhdsWithin] with x hx hxz
  exact ⟨h0, h1, fun h => (hx h).le, fun h => (le_of_lt hxz).trans (h3 h)⟩

theorem right_eventually (hn : 0 < M.n) (z : ℝ) :
    ∃ i, M.InClosed i z ∧ ∀ᶠ x in 𝓝[>] z, M.InClosed i x := by
  obtain ⟨i, h0, h1, h2, h3⟩ := exists_right hn z
  refine ⟨i, ⟨h0, h1, h2, fun h => (h3 h).le⟩, ?_⟩
  have ev : ∀ᶠ x in 𝓝[>] z, (i ≠ M.n - 1 → x < M.D (i + 1)) := by
    by_cases h : i = M.n - 1
    · simp [h]
    · have : ∀ᶠ x in 𝓝[>] z, x < M.D (i + 1) :=
        (eventually_lt_nhds (h3 h)).filter_mono nhdsWithin_le_nhds
      filter_upwards [this] with x hx _ using hx
  filter_upwards [ev, self_mem_nhdsWithin] with x hx hxz
  exact ⟨h0, h1, fun h => (h2 h).trans (le_of_lt hxz), fun h => (hx h).le⟩

theorem Pasted.continuousAt (hn : 0 < M.n) {U : Set ℝ} (hU : IsOpen U) {F : ℝ → ℂ}
    {f : ℤ → ℝ → ℂ} (hp : Pasted M U F f) (hc : ∀ i, 0 ≤ i → i < M.n → Continuous (f i)) {z : ℝ}
    (hz : z ∈ U) : ContinuousAt F z := by
  rw [continuousAt_iff_continuous_left'_right']
  constructor
  · obtain ⟨i, hi, hev⟩ := left_eventually hn z
    unfold ContinuousWithinAt
    rw [hp i z hz hi]
    have := ((hc i hi.1 hi.2.1).tendsto z).mono_left (nhdsWithin_le_nhds (s := Iio z))
    refine this.congr' ?_
    filter_upwards [hev, nhdsWithin_le_nhds (hU.mem_nhds hz)] with x hx hxU
    exact (hp i x hxU hx).symm
  · obtain ⟨i, hi, hev⟩ := right_eventually hn z
    unfold ContinuousWithinAt
    rw [hp i z hz hi]
    have := ((hc i hi.1 hi.2.1).tendsto z).mono_left (nhdsWithin_le_nhds (s := Ioi z))
    refine this.congr' ?_
    filter_upwards [hev, nhdsWithin_le_nhds (hU.mem_nhds hz)] with x hx hxU
    exact (hp i x hxU hx).symm

open Classical in
/-- some layer containing `z` -/
noncomputable def lay (M : Stack) (z : ℝ) : ℤ :=
  if h : 0 < M.n then (exists_left h z).choose else 0

theorem lay_spec (hn : 0 < M.n) (z : ℝ) : M.InClosed (lay M z) z := by
  unfold lay
  rw [dif_pos hn]
  obtain ⟨h0, h1, h2, h3⟩ := (exists_left hn z).choose_spec
  exact ⟨h0, h1, fun h => (h2 h).le, h3⟩

section
variable (M G)
variable (s : ℤ) (zs : ℝ) (α β : ℂ)

/-- paste two families at the source depth -/
noncomputable def paste (M : Stack) (s : ℤ) (zs : ℝ) (up dn : ℤ → ℝ → ℂ) (z : ℝ) : ℂ :=
  if z < zs then up (lay M z) z else if zs < z then dn (lay M z) z else (up s zs + dn s zs) / 2

noncomputable def fldA : ℝ → ℂ := paste M s zs (upA M G s zs α β) (dnA M G s zs α β)
noncomputable def fldB : ℝ → ℂ := paste M s zs (upB M G s zs α β) (dnB M G s zs α β)
end

variable {s : ℤ} {zs : ℝ} {α β : ℂ}

theorem below_le (ho : M.Ordered) (hs : M.InClosed s zs) {i : ℤ} {z : ℝ} (hz : zs < z)
    (hi : M.InClosed i z) : s ≤ i := by
  by_contra hc
  push Not at hc
  have h1 := hi.2.2.2 (by have := hs.2.1; omega)
  have h2 := hs.2.2.1 (by have := hi.1; omega)
  have h3 : M.D (i + 1) ≤ M.D s := mono_le ho (by have := hi.1; omega) (by omega) hs.2.1
  linarith

theorem above_le (ho : M.Ordered) (hs : M.InClosed s zs) {i : ℤ} {z : ℝ} (hz : z < zs)
    (hi : M.InClosed i z) : i ≤ s := by
  by_contra hc
  push Not at hc
  have h1 := hi.2.2.1 (by have := hs.1; omega)
  have h2 := hs.2.2.2 (by have := hi.2.1; omega)
  have h3 : M.D (s + 1) ≤ M.D i := mono_le ho (by have := hs.1; omega) (by omega) hi.2.1
  linarith

/-- matching conditions of a pair of families -/
structure Matched (M : Stack) (s : ℤ) (up dn : ℤ → ℝ → ℂ) : Prop where
  up : ∀ i, 0 ≤ i → i + 1 ≤ s → up i (M.D (i + 1)) = up (i + 1) (M.D (i + 1))
  dn : ∀ i, s ≤ i → i + 1 ≤ M.n - 1 → dn i (M.D (i + 1)) = dn (i + 1) (M.D (i + 1))

theorem paste_above (ho : M.Ordered) (hs : M.InClosed s zs) {up dn : ℤ → ℝ → ℂ}
    (hm : Matched M s up dn) : Pasted M (Iio zs) (paste M s zs up dn) up := by
  intro i z hz hi
  have hz' : z < zs := hz
  simp only [paste, hz', if_true]
  have hl := lay_spec ho.pos z
  exact consistent ho (le_refl 0) hs.2.1 hm.up hl.1 (above_le ho hs hz' hl) hi.1
    (above_le ho hs hz' hi) hl hi

theorem paste_below (ho : M.Ordered) (hs : M.InClosed s zs) {up dn : ℤ → ℝ → ℂ}
    (hm : Matched M s up dn) : Pasted M (Ioi zs) (paste M s zs up dn) dn := by
  intro i z hz hi
  have hz' : zs < z := hz
  simp only [paste, not_lt.2 hz'.le, if_false, hz', if_true]
  have hl := lay_spec ho.pos z
  exact consistent ho (hs.1) (by omega : M.n - 1 < M.n) hm.dn (below_le ho hs hz' hl)
    (by have := hl.2.1; omega) (below_le ho hs hz' hi) (by have := hi.2.1; omega) hl hi

theorem paste_left (ho : M.Ordered) (hs : M.InClosed s zs) {up dn : ℤ → ℝ → ℂ}
    (hm : Matched M s up dn) (hc : ∀ i, 0 ≤ i → i < M.n → Continuous (up i)) :
    Tendsto (paste M s zs up dn) (𝓝[<] zs) (𝓝 (up s zs)) := by
  obtain ⟨i, hi, hev⟩ := left_eventually ho.pos zs
  have hle : i ≤ s := by
    obtain ⟨x, hx1, hx2⟩ := (hev.and self_mem_nhdsWithin).exists
    exact above_le ho hs hx2 hx1
  have : up s zs = up i zs :=
    consistent ho (le_refl 0) hs.2.1 hm.up hs.1 (le_refl s) hi.1 hle hs hi
  rw [this]
  have := ((hc i hi.1 hi.2.1).tendsto zs).mono_left (nhdsWithin_le_nhds (s := Iio zs))
  refine this.congr' ?_
  filter_upwards [hev, self_mem_nhdsWithin] with x hx hxz
  exact (paste_above ho hs hm i x hxz hx).symm

theorem paste_right (ho : M.Ordered) (hs : M.InClosed s zs) {up dn : ℤ → ℝ → ℂ}
    (hm : Matched M s up dn) (hc : ∀ i, 0 ≤ i → i < M.n → Continuous (dn i)) :
    Tendsto (paste M s zs up dn) (𝓝[>] zs) (𝓝 (dn s zs)) := by
  obtain ⟨i, hi, hev⟩ := right_eventually ho.pos zs
  have hle : s ≤ i := by
    obtain ⟨x, hx1, hx2⟩ := (hev.and self_mem_nhdsWithin).exists
    exact below_le ho hs hx2 hx1
  have : dn s zs = dn i zs :=
    consistent ho hs.1 (by omega : M.n - 1 < M.n) hm.dn (le_refl s) (by have := hs.2.1; omega)
      hle (by have := hi.2.1; omega) hs hi
  rw [this]
  have := ((hc i hi.1 hi.2.1).tendsto zs).mono_left (nhdsWithin_le_nhds (s := Ioi zs))
  refine this.congr' ?_
  filter_upwards [hev, self_mem_nhdsWithin] with x hx hxz
  exact (paste_below ho hs hm i x hxz hx).symm

theorem exp_decay_top {Γ : ℂ} (h : 0 < Γ.re) (a : ℝ) :
    Tendsto (fun z : ℝ => Complex.exp (-Γ * ((z - a : ℝ) : ℂ))) atTop (𝓝 0) := by
  rw [tendsto_zero_iff_norm_tendsto_zero]
  have : (fun z : ℝ => ‖Complex.exp (-Γ * ((z - a : ℝ) : ℂ))‖) =
      fun z : ℝ => Real.exp (-Γ.re * (z - a)) := by
    funext z
    rw [Complex.norm_exp, Complex.mul_re, Complex.ofReal_re, Complex.ofReal_im, mul_zero, sub_zero,
      Complex.neg_re]
  rw [this]
  apply Real.tendsto_exp_atBot.comp
  have : Tendsto (fun z : ℝ => z - a) atTop atTop := tendsto_atTop_add_const_right _ _ tendsto_id
  exact this.const_mul_atTop_of_neg (by linarith)

theorem exp_decay_bot {Γ : ℂ} (h : 0 < Γ.re) (a : ℝ) :
    Tendsto (fun z : ℝ => Complex.exp (-Γ * ((a - z : ℝ) : ℂ))) atBot (𝓝 0) := by
  have := (exp_decay_top h (-a)).comp tendsto_neg_atBot_atTop
  refine this.congr ?_
  intro z
  simp only [Function.comp_apply]
  congr 3; ring

theorem Good.dn_decay (h : Good M G) (hs : M.InClosed s zs) :
    Tendsto (dnD M G s zs α β (M.n - 1)) atTop (𝓝 0) ∧
    Tendsto (dnU M G s zs α β (M.n - 1)) atTop (𝓝 0) := by
  have hre := (h.lay (M.n - 1) (by have := h.ord.pos; omega) (by omega)).re
  have hU : dnU M G s zs α β (M.n - 1) = fun _ => 0 := by
    funext z
    simp only [dnU]
    split
    · rename_i hsn
      subst hsn
      simp [wu, Us, Rdn_last]
    · simp [wu, Rdn_last]
  refine ⟨?_, by rw [hU]; exact tendsto_const_nhds⟩
  by_cases hsn : M.n - 1 = s
  · have : dnD M G s zs α β (M.n - 1) = fun z =>
      β * Complex.exp (-G s * ((z - zs : ℝ) : ℂ)) + wd M G s (Vs M G s zs α β) z := by
      funext z; simp [dnD, hsn]
    rw [this]
    rw [hsn] at hre
    have := ((exp_decay_top hre zs).const_mul β).add
      ((exp_decay_top hre (M.D s)).const_mul (Vs M G s zs α β))
    simpa [wd, wu] using this
  · have : dnD M G s zs α β (M.n - 1) = fun z => wd M G (M.n - 1) (Vl M G s zs α β (M.n - 1)) z := by
      funext z; simp [dnD, hsn]
    rw [this]
    have := (exp_decay_top hre (M.D (M.n - 1))).const_mul (Vl M G s zs α β (M.n - 1))
    simpa [wd, wu] using this

theorem Good.up_decay (h : Good M G) (hs : M.InClosed s zs) :
    Tendsto (upU M G s zs α β 0) atBot (𝓝 0) ∧
    Tendsto (upD M G s zs α β 0) atBot (𝓝 0) := by
  have hre := (h.lay 0 (by omega) h.ord.pos).re
  have hU : upD M G s zs α β 0 = fun _ => 0 := by
    funext z
    simp only [upD]
    split
    · rename_i hsn
      subst hsn
      simp [wd, Vs, Rup_first]
    · simp [wd, Rup_first]
  refine ⟨?_, by rw [hU]; exact tendsto_const_nhds⟩
  by_cases hsn : 0 = s
  · have : upU M G s zs α β 0 = fun z =>
      α * Complex.exp (-G s * ((zs - z : ℝ) : ℂ)) + wu M G s (Us M G s zs α β) z := by
      funext z; simp [upU, hsn]
    rw [this]
    rw [hsn] at hre
    have := ((exp_decay_bot hre zs).const_mul α).add
      ((exp_decay_bot hre (M.D (s + 1))).const_mul (Us M G s zs α β))
    simpa [wd, wu] using this
  · have : upU M G s zs α β 0 = fun z => wu M G 0 (Ul M G s zs α β 0) z := by
      funext z; simp [upU, hsn]
    rw [this]
    have := (exp_decay_bot hre (M.D (0 + 1))).const_mul (Ul M G s zs α β 0)
    simpa [wd, wu] using this

theorem Good.matchedA (h : Good M G) (hs : M.InClosed s zs) :
    Matched M s (upA M G s zs α β) (dnA M G s zs α β) where
  up i h0 h1 := by
    have := (h.up_match (zs := zs) (α := α) (β := β) (s := s) (by have := hs.2.1; omega)
      (i := i + 1) (by omega) (by omega)).1
    rw [add_sub_cancel_right] at this
    exact this.symm
  dn i h0 h1 := (h.dn_match (zs := zs) (α := α) (β := β) hs.1 h0 h1).1

theorem Good.matchedB (h : Good M G) (hs : M.InClosed s zs) :
    Matched M s (upB M G s zs α β) (dnB M G s zs α β) where
  up i h0 h1 := by
    have := (h.up_match (zs := zs) (α := α) (β := β) (s := s) (by have := hs.2.1; omega)
      (i := i + 1) (by omega) (by omega)).2
    rw [add_sub_cancel_right] at this
    exact this.symm
  dn i h0 h1 := (h.dn_match (zs := zs) (α := α) (β := β) hs.1 h0 h1).2

theorem jump_s : dnA M G s zs α β s zs - upA M G s zs α β s zs = β - α := by
  simp [dnA, upA, dnD, dnU, upD, upU]; ring

theorem jump_sB : dnB M G s zs α β s zs - upB M G s zs α β s zs = -(Yl M G s * (α + β)) := by
  simp [dnB, upB, dnD, dnU, upD, upU]; ring

/-- The explicit field solves the specification. -/
theorem Good.isField (h : Good M G) (hs : M.InClosed s zs) :
    M.IsField zs (β - α) (-(Yl M G s * (α + β))) (fldA M G s zs α β) (fldB M G s zs α β) := by
  have ho := h.ord
  have hn := ho.pos
  have mA := h.matchedA (α := α) (β := β) hs
  have mB := h.matchedB (α := α) (β := β) hs
  have aA := paste_above ho hs mA
  have aB := paste_above ho hs mB
  have bA := paste_below ho hs mA
  have bB := paste_below ho hs mB
  have cUA : ∀ i, 0 ≤ i → i < M.n → Continuous (upA M G s zs α β i) := fun i h0 h1 =>
    continuous_iff_continuousAt.2 fun z => (h.up_ode h0 h1 z).1.continuousAt
  have cUB : ∀ i, 0 ≤ i → i < M.n → Continuous (upB M G s zs α β i) := fun i h0 h1 =>
    continuous_iff_continuousAt.2 fun z => (h.up_ode h0 h1 z).2.continuousAt
  have cDA : ∀ i, 0 ≤ i → i < M.n → Continuous (dnA M G s zs α β i) := fun i h0 h1 =>
    continuous_iff_continuousAt.2 fun z => (h.dn_ode h0 h1 z).1.continuousAt
  have cDB : ∀ i, 0 ≤ i → i < M.n → Continuous (dnB M G s zs α β i) := fun i h0 h1 =>
    continuous_iff_continuousAt.2 fun z => (h.dn_ode h0 h1 z).2.continuousAt
  have midA : fldA M G s zs α β zs = (upA M G s zs α β s zs + dnA M G s zs α β s zs) / 2 := by
    simp [fldA, paste]
  have midB : fldB M G s zs α β zs = (upB M G s zs α β s zs + dnB M G s zs α β s zs) / 2 := by
    simp [fldB, paste]
  have jA := jump_s (M := M) (G := G) (s := s) (zs := zs) (α := α) (β := β)
  have jB := jump_sB (M := M) (G := G) (s := s) (zs := zs) (α := α) (β := β)
  refine ⟨?_, ?_, ?_, ?_, ⟨?_, ?_⟩, ⟨?_, ?_⟩, ⟨?_, ?_⟩, ⟨?_, ?_⟩⟩
  · intro i z hi hz
    rcases lt_or_gt_of_ne hz with hz | hz
    · have e : fldB M G s zs α β z = upB M G s zs α β i z := aB i z hz (inOpen_inClosed hi)
      rw [e]
      exact Pasted.hasDerivAt isOpen_Iio aA hi hz (h.up_ode hi.1 hi.2.1 z).1
    · have e : fldB M G s zs α β z = dnB M G s zs α β i z := bB i z hz (inOpen_inClosed hi)
      rw [e]
      exact Pasted.hasDerivAt isOpen_Ioi bA hi hz (h.dn_ode hi.1 hi.2.1 z).1
  · intro i z hi hz
    rcases lt_or_gt_of_ne hz with hz | hz
    · have e : fldA M G s zs α β z = upA M G s zs α β i z := aA i z hz (inOpen_inClosed hi)
      rw [e]
      exact Pasted.hasDerivAt isOpen_Iio aB hi hz (h.up_ode hi.1 hi.2.1 z).2
    · have e : fldA M G s zs α β z = dnA M G s zs α β i z := bA i z hz (inOpen_inClosed hi)
      rw [e]
      exact Pasted.hasDerivAt isOpen_Ioi bB hi hz (h.dn_ode hi.1 hi.2.1 z).2
  · intro z _ hz
    rcases lt_or_gt_of_ne hz with hz | hz
    · exact Pasted.continuousAt hn isOpen_Iio aA cUA hz
    · exact Pasted.continuousAt hn isOpen_Ioi bA cDA hz
  · intro z _ hz
    rcases lt_or_gt_of_ne hz with hz | hz
    · exact Pasted.continuousAt hn isOpen_Iio aB cUB hz
    · exact Pasted.continuousAt hn isOpen_Ioi bB cDB hz
  · have : fldA M G s zs α β zs - (β - α) / 2 = upA M G s zs α β s zs := by
      rw [midA, ← jA]; ring
    rw [this]; exact paste_left ho hs mA cUA
  · have : fldA M G s zs α β zs + (β - α) / 2 = dnA M G s zs α β s zs := by
      rw [midA, ← jA]; ring
    rw [this]; exact paste_right ho hs mA cDA
  · have : fldB M G s zs α β zs - -(Yl M G s * (α + β)) / 2 = upB M G s zs α β s zs := by
      rw [midB, ← jB]; ring
    rw [this]; exact paste_left ho hs mB cUB
  · have : fldB M G s zs α β zs + -(Yl M G s * (α + β)) / 2 = dnB M G s zs α β s zs := by
      rw [midB, ← jB]; ring
    rw [this]; exact paste_right ho hs mB cDB
  · have lim := (h.dn_decay (α := α) (β := β) hs).1.add (h.dn_decay (α := α) (β := β) hs).2
    rw [add_zero] at lim
    refine lim.congr' ?_
    filter_upwards [eventually_gt_atTop zs, eventually_ge_atTop (M.D (M.n - 1))] with z hz1 hz2
    exact (bA (M.n - 1) z hz1 ⟨by omega, by omega, fun _ => hz2, fun h => absurd rfl h⟩).symm
  · have lim := (h.up_decay (α := α) (β := β) hs).2.add (h.up_decay (α := α) (β := β) hs).1
    rw [add_zero] at lim
    refine lim.congr' ?_
    filter_upwards [eventually_lt_atBot zs, eventually_le_atBot (M.D (0 + 1))] with z hz1 hz2
    exact (aA 0 z hz1 ⟨by omega, by omega, fun h => absurd rfl h, fun _ => hz2⟩).symm
  · have lim := ((h.dn_decay (α := α) (β := β) hs).2.sub
      (h.dn_decay (α := α) (β := β) hs).1).const_mul (Yl M G (M.n - 1))
    rw [sub_zero, mul_zero] at lim
    refine lim.congr' ?_
    filter_upwards [eventually_gt_atTop zs, eventually_ge_atTop (M.D (M.n - 1))] with z hz1 hz2
    exact (bB (M.n - 1) z hz1 ⟨by omega, by omega, fun _ => hz2, fun h => absurd rfl h⟩).symm
  · have lim := ((h.up_decay (α := α) (β := β) hs).1.sub
      (h.up_decay (α := α) (β := β) hs).2).const_mul (Yl M G 0)
    rw [sub_zero, mul_zero] at lim
    refine lim.congr' ?_
    filter_upwards [eventually_lt_atBot zs, eventually_le_atBot (M.D (0 + 1))] with z hz1 hz2
    exact (aB 0 z hz1 ⟨by omega, by omega, fun h => absurd rfl h, fun _ => hz2⟩).symm

end Verif.Lemmas
