import Verif.Lemmas.Invariance
import Verif.Spec.Moves

/-! Helper lemmas: split, shifted and mirrored media; reciprocity of plane fields. -/

namespace Verif.Lemmas
open Verif.Spec Verif.Spec.Stack Verif.Kernel Verif.Transform Verif.Utils Complex Filter Topology

/-! ## geometry -/

theorem ok_le {M : Medium} (hM : M.OK) : ∀ {i j : ℤ}, 1 ≤ i → i ≤ j → j < M.n → M.D i ≤ M.D j := by
  intro i j hi hij hj
  induction j, hij using Int.leInduction with
  | base => exact le_refl _
  | succ m hm ih => exact (ih (by omega)).trans (hM.mono m (by omega) hj)

theorem open_unique {M : Medium} (hM : M.OK) {i j : ℤ} {z : ℝ} (hi : M.InOpen i z)
    (hj : M.InClosed j z) : i = j := by
  obtain ⟨a0, a1, a2, a3⟩ := hi
  obtain ⟨b0, b1, b2, b3⟩ := hj
  rcases lt_trichotomy i j with h | h | h
  · have h1 := a3 (by omega)
    have h2 := b2 (by omega)
    have := ok_le hM (i := i + 1) (j := j) (by omega) (by omega) b1
    linarith
  · exact h
  · have h1 := b3 (by omega)
    have h2 := a2 (by omega)
    have := ok_le hM (i := j + 1) (j := i) (by omega) (by omega) a1
    linarith

/-! ## splitting -/

section
variable {M : Medium} {k : ℤ} {d : ℝ}

theorem split_ok (hM : M.OK) (hk : M.InClosed k d) : (M.split k d).OK where
  pos := by have := hM.pos; simp only [Medium.split]; omega
  mono i h1 h2 := by
    obtain ⟨k0, k1, k2, k3⟩ := hk
    simp only [Medium.split] at h2 ⊢
    rcases lt_trichotomy i k with h | h | h
    · rw [if_pos h.le, if_pos (by omega)]; exact hM.mono i h1 (by omega)
    · rw [if_pos h.le, if_neg (by omega), if_pos (by omega)]
      subst h; exact k2 (by omega)
    · have e1 : ¬ i ≤ k := by omega
      have e2 : ¬ i + 1 ≤ k := by omega
      have e3 : ¬ i + 1 = k + 1 := by omega
      simp only [e1, e2, e3, if_false]
      by_cases h' : i = k + 1
      · rw [if_pos h']
        subst h'
        simpa using k3 (by omega)
      · rw [if_neg h']
        have := hM.mono (i - 1) (by omega) (by omega)
        simpa using this
  pas i h0 h1 := by
    simp only [Medium.split] at h1
    refine hM.pas (Medium.parent k i) ?_ ?_ <;> simp only [Medium.parent] <;> split_ifs <;>
      have := hk.1 <;> have := hk.2.1 <;> omega

theorem split_closed (hk : M.InClosed k d) {i : ℤ} {z : ℝ} (h : (M.split k d).InClosed i z) :
    M.InClosed (Medium.parent k i) z := by
  obtain ⟨k0, k1, k2, k3⟩ := hk
  obtain ⟨h0, h1, h2, h3⟩ := h
  simp only [Medium.split] at h1 h2 h3
  simp only [Medium.parent]
  split_ifs with hik
  · refine ⟨h0, by omega, fun hi => ?_, fun hi => ?_⟩
    · have := h2 hi; rwa [if_pos hik] at this
    · have h4 := h3 (by omega)
      by_cases he : i = k
      · subst he
        rw [if_neg (by omega), if_pos rfl] at h4
        exact h4.trans (k3 hi)
      · rwa [if_pos (by omega)] at h4
  · refine ⟨by omega, by omega, fun hi => ?_, fun hi => ?_⟩
    · have h4 := h2 (by omega)
      rw [if_neg hik] at h4
      by_cases he : i = k + 1
      · rw [if_pos he] at h4
        have := k2 (by omega)
        have hk' : i - 1 = k := by omega
        rw [hk']; exact this.trans h4
      · rwa [if_neg he] at h4
    · have h4 := h3 (by omega)
      rw [if_neg (by omega), if_neg (by omega)] at h4
      simpa using h4

theorem split_same (hM : M.OK) (hk : M.InClosed k d) : SameMedium (M.split k d) M := by
  intro i j z hi hj
  have h1 := split_closed hk (medium_open_closed hi)
  have := open_unique hM hj h1
  subst this
  exact ⟨rfl, rfl, rfl, rfl⟩

end

theorem uniform_same {M : Medium} {k : ℤ} (hu : M.Uniform k) : SameMedium M (M.homog k) := by
  intro i j z hi _
  obtain ⟨h1, h2, h3, h4⟩ := hu i hi.1 hi.2.1
  exact ⟨h1, h2, h3, h4⟩

/-! ## moved fields -/

/-- `S` moved down by `c`. -/
def sshift (S : Stack) (c : ℝ) : Stack := ⟨S.n, fun i => S.D i + c, S.e, S.q⟩

/-- `S` upside down. -/
def smirror (S : Stack) : Stack :=
  ⟨S.n, fun i => -S.D (S.n - i), fun i => S.e (S.n - 1 - i), fun i => S.q (S.n - 1 - i)⟩

theorem sshift_open {S : Stack} {c : ℝ} {i : ℤ} {z : ℝ} (h : (sshift S c).InOpen i z) :
    S.InOpen i (z - c) := by
  obtain ⟨h0, h1, h2, h3⟩ := h
  refine ⟨h0, h1, fun hi => ?_, fun hi => ?_⟩
  · have := h2 hi; simp only [sshift] at this; linarith
  · have := h3 hi; simp only [sshift] at this; linarith

theorem smirror_open {S : Stack} {i : ℤ} {z : ℝ} (h : (smirror S).InOpen i z) :
    S.InOpen (S.n - 1 - i) (-z) := by
  obtain ⟨h0, h1, h2, h3⟩ := h
  simp only [smirror] at h1 h2 h3
  refine ⟨by omega, by omega, fun hi => ?_, fun hi => ?_⟩
  · have := h3 (by omega)
    have e : S.n - (i + 1) = S.n - 1 - i := by ring
    rw [e] at this; linarith
  · have := h2 (by omega)
    have e : S.n - 1 - i + 1 = S.n - i := by ring
    rw [e]; linarith

theorem tendsto_sub_left (c x : ℝ) : Tendsto (fun z : ℝ => z - c) (𝓝[<] x) (𝓝[<] (x - c)) := by
  refine tendsto_nhdsWithin_iff.2 ⟨?_, ?_⟩
  · exact tendsto_inf_left ((continuous_id.sub continuous_const).tendsto' x (x - c) rfl)
  · filter_upwards [self_mem_nhdsWithin] with y hy
    simp only [Set.mem_Iio] at hy ⊢; linarith

theorem tendsto_sub_right (c x : ℝ) : Tendsto (fun z : ℝ => z - c) (𝓝[>] x) (𝓝[>] (x - c)) := by
  refine tendsto_nhdsWithin_iff.2 ⟨?_, ?_⟩
  · exact tendsto_inf_left ((continuous_id.sub continuous_const).tendsto' x (x - c) rfl)
  · filter_upwards [self_mem_nhdsWithin] with y hy
    simp only [Set.mem_Ioi] at hy ⊢; linarith

theorem tendsto_neg_left (x : ℝ) : Tendsto (fun z : ℝ => -z) (𝓝[<] (-x)) (𝓝[>] x) := by
  refine tendsto_nhdsWithin_iff.2 ⟨?_, ?_⟩
  · exact tendsto_inf_left (continuous_neg.tendsto' (-x) x (neg_neg x))
  · filter_upwards [self_mem_nhdsWithin] with y hy
    simp only [Set.mem_Iio, Set.mem_Ioi] at hy ⊢; linarith

theorem tendsto_neg_right (x : ℝ) : Tendsto (fun z : ℝ => -z) (𝓝[>] (-x)) (𝓝[<] x) := by
  refine tendsto_nhdsWithin_iff.2 ⟨?_, ?_⟩
  · exact tendsto_inf_left (continuous_neg.tendsto' (-x) x (neg_neg x))
  · filter_upwards [self_mem_nhdsWithin] with y hy
    simp only [Set.mem_Iio, Set.mem_Ioi] at hy ⊢; linarith

theorem deriv_shift {f : ℝ → ℂ} {f' : ℂ} {c z : ℝ} (h : HasDerivAt f f' (z - c)) :
    HasDerivAt (fun y => f (y - c)) f' z := by
  have := HasDerivAt.comp_sub_const z c h
  exact this

theorem deriv_mirror {f : ℝ → ℂ} {f' : ℂ} {z : ℝ} (h : HasDerivAt f f' (-z)) :
    HasDerivAt (fun y => f (-y)) (-f') z := by
  have h2 : HasDerivAt (fun y : ℝ => -y) (-1) z := hasDerivAt_neg z
  have := HasDerivAt.scomp z h h2
  simpa [Function.comp_def] using this

theorem field_shift {S : Stack} (hn : 0 < S.n) (c : ℝ) {zs : ℝ} {jA jB : ℂ} {A B : ℝ → ℂ}
    (h : S.IsField zs jA jB A B) :
    (sshift S c).IsField (zs + c) jA jB (fun z => A (z - c)) (fun z => B (z - c)) := by
  have hne : ∀ {z : ℝ}, z ≠ zs + c → z - c ≠ zs := fun hz h => hz (by linarith)
  have hct : ∀ z : ℝ, ContinuousAt (fun y : ℝ => y - c) z := fun z =>
    (continuous_id.sub continuous_const).continuousAt
  have hzc : zs + c - c = zs := by ring
  have tl := tendsto_sub_left c (zs + c)
  have tr := tendsto_sub_right c (zs + c)
  rw [hzc] at tl tr
  have hT : Tendsto (fun z : ℝ => z - c) atTop atTop := tendsto_atTop_add_const_right _ _ tendsto_id
  have hB : Tendsto (fun z : ℝ => z - c) atBot atBot := tendsto_atBot_add_const_right _ _ tendsto_id
  refine ⟨?_, ?_, ?_, ?_, ?_, ?_, ?_, ?_⟩
  · intro i z hi hz; exact deriv_shift (h.odeA i (z - c) (sshift_open hi) (hne hz))
  · intro i z hi hz; exact deriv_shift (h.odeB i (z - c) (sshift_open hi) (hne hz))
  · intro z _ hz
    exact ContinuousAt.comp (f := fun y : ℝ => y - c) (field_continuousAt hn h (hne hz)).1 (hct z)
  · intro z _ hz
    exact ContinuousAt.comp (f := fun y : ℝ => y - c) (field_continuousAt hn h (hne hz)).2 (hct z)
  · rw [hzc]; exact ⟨h.jumpA.1.comp tl, h.jumpA.2.comp tr⟩
  · rw [hzc]; exact ⟨h.jumpB.1.comp tl, h.jumpB.2.comp tr⟩
  · exact ⟨h.decayA.1.comp hT, h.decayA.2.comp hB⟩
  · exact ⟨h.decayB.1.comp hT, h.decayB.2.comp hB⟩

theorem field_mirror {S : Stack} (hn : 0 < S.n) {zs : ℝ} {jA jB : ℂ} {A B : ℝ → ℂ}
    (h : S.IsField zs jA jB A B) :
    (smirror S).IsField (-zs) (-jA) jB (fun z => A (-z)) (fun z => -B (-z)) := by
  have hne : ∀ {z : ℝ}, z ≠ -zs → -z ≠ zs := fun hz h => hz (by linarith)
  have tl := tendsto_neg_left zs
  have tr := tendsto_neg_right zs
  have a1 := h.jumpA.2.comp tl
  have a2 := h.jumpA.1.comp tr
  have b1 := (h.jumpB.2.comp tl).neg
  have b2 := (h.jumpB.1.comp tr).neg
  refine ⟨?_, ?_, ?_, ?_, ?_, ?_, ?_, ?_⟩
  · intro i z hi hz
    have := deriv_mirror (h.odeA _ (-z) (smirror_open hi) (hne hz))
    have e : (smirror S).e i * -B (-z) = -(S.e (S.n - 1 - i) * B (-z)) := by
      simp only [smirror]; ring
    rw [e]; exact this
  · intro i z hi hz
    have := (deriv_mirror (h.odeB _ (-z) (smirror_open hi) (hne hz))).neg
    rw [neg_neg] at this
    exact this
  · intro z _ hz
    exact ContinuousAt.comp (f := fun y : ℝ => -y) (field_continuousAt hn h (hne hz)).1
      continuous_neg.continuousAt
  · intro z _ hz
    exact (ContinuousAt.comp (f := fun y : ℝ => -y) (field_continuousAt hn h (hne hz)).2
      continuous_neg.continuousAt).neg
  · rw [neg_neg]
    constructor
    · have e : A zs - -jA / 2 = A zs + jA / 2 := by ring
      rw [e]; exact a1
    · have e : A zs + -jA / 2 = A zs - jA / 2 := by ring
      rw [e]; exact a2
  · rw [neg_neg]
    constructor
    · have e : -B zs - jB / 2 = -(B zs + jB / 2) := by ring
      rw [e]; exact b1
    · have e : -B zs + jB / 2 = -(B zs - jB / 2) := by ring
      rw [e]; exact b2
  · exact ⟨h.decayA.2.comp tendsto_neg_atTop_atBot, h.decayA.1.comp tendsto_neg_atBot_atTop⟩
  · have h1 := (h.decayB.2.comp tendsto_neg_atTop_atBot).neg
    have h2 := (h.decayB.1.comp tendsto_neg_atBot_atTop).neg
    rw [neg_zero] at h1 h2
    exact ⟨h1, h2⟩

theorem resp_shift {S : Stack} (hn : 0 < S.n) (c : ℝ) {zs zr : ℝ} {s r : ℤ} {xd : Bool}
    {Ao Bo Ae Be : ℂ} (R : Resp S zs zr s r xd Ao Bo Ae Be) :
    Resp (sshift S c) (zs + c) (zr + c) s r xd Ao Bo Ae Be := by
  obtain ⟨⟨A, B, C, D, f1, f2, rfl, rfl⟩, ⟨A', B', C', D', f1', f2', rfl, rfl⟩⟩ := R
  have one : 0 < (homog S s).n := by simp [homog]
  refine ⟨⟨_, _, _, _, field_shift hn c f1, field_shift one c f2, ?_, ?_⟩,
    ⟨_, _, _, _, field_shift hn c f1', field_shift one c f2', ?_, ?_⟩⟩ <;>
  · unfold xval; simp only [add_sub_cancel_right]

theorem resp_mirror {S : Stack} (hn : 0 < S.n) {zs zr : ℝ} {s r : ℤ} {xd : Bool}
    {Ao Bo Ae Be : ℂ} (R : Resp S zs zr s r xd Ao Bo Ae Be) :
    Resp (smirror S) (-zs) (-zr) (S.n - 1 - s) (S.n - 1 - r) xd (-Ao) Bo Ae (-Be) := by
  obtain ⟨⟨A, B, C, D, f1, f2, rfl, rfl⟩, ⟨A', B', C', D', f1', f2', rfl, rfl⟩⟩ := R
  have one : 0 < (homog S s).n := by simp [homog]
  have hh : Same (smirror (homog S s)) (homog (smirror S) (S.n - 1 - s)) := by
    intro i j z _ _
    constructor
    · simp only [smirror, homog]; congr 1; ring
    · simp only [smirror, homog]; congr 1; ring
  have one' : 0 < (smirror (homog S s)).n := by simp [homog, smirror]
  have m1 := field_smul (-1) (field_mirror hn f1)
  have m2 := field_smul (-1) (same_field one' hh (field_mirror one f2))
  have m1' := field_mirror hn f1'
  have m2' := same_field one' hh (field_mirror one f2')
  simp only [neg_mul, one_mul, neg_neg, neg_zero] at m1 m2 m1' m2'
  have e : (S.n - 1 - r = S.n - 1 - s) = (r = s) := by apply propext; constructor <;> intro <;> omega
  refine ⟨⟨_, _, _, _, m1, m2, ?_, ?_⟩, ⟨_, _, _, _, m1', m2', ?_, ?_⟩⟩ <;>
  · unfold xval; simp only [neg_neg, e]; try (split_ifs <;> ring)

theorem shift_tm (M : Medium) (c lam : ℝ) : (M.shift c).tm lam = sshift (M.tm lam) c := rfl
theorem shift_te (M : Medium) (c lam : ℝ) : (M.shift c).te lam = sshift (M.te lam) c := rfl
theorem mirror_tm (M : Medium) (lam : ℝ) : M.mirror.tm lam = smirror (M.tm lam) := rfl
theorem mirror_te (M : Medium) (lam : ℝ) : M.mirror.te lam = smirror (M.te lam) := rfl

theorem shift_ok {M : Medium} (hM : M.OK) (c : ℝ) : (M.shift c).OK :=
  ⟨hM.pos, fun i h1 h2 => by have := hM.mono i h1 h2; simp only [Medium.shift]; linarith, hM.pas⟩

theorem shift_closed {M : Medium} (c : ℝ) {i : ℤ} {z : ℝ} (h : M.InClosed i z) :
    (M.shift c).InClosed i (z + c) := by
  obtain ⟨h0, h1, h2, h3⟩ := h
  refine ⟨h0, h1, fun hi => ?_, fun hi => ?_⟩
  · have := h2 hi; simp only [Medium.shift]; linarith
  · have := h3 hi; simp only [Medium.shift]; linarith

theorem mirror_ok {M : Medium} (hM : M.OK) : M.mirror.OK where
  pos := hM.pos
  mono i h1 h2 := by
    simp only [Medium.mirror] at h2 ⊢
    have := hM.mono (M.n - (i + 1)) (by omega) (by omega)
    have e : M.n - (i + 1) + 1 = M.n - i := by ring
    rw [e] at this; linarith
  pas i h0 h1 := by
    simp only [Medium.mirror] at h1
    exact hM.pas (M.n - 1 - i) (by omega) (by omega)

theorem mirror_closed {M : Medium} {i : ℤ} {z : ℝ} (h : M.InClosed i z) :
    M.mirror.InClosed (M.n - 1 - i) (-z) := by
  obtain ⟨h0, h1, h2, h3⟩ := h
  refine ⟨by omega, by simp only [Medium.mirror]; omega, fun hi => ?_, fun hi => ?_⟩
  · have := h3 (by omega)
    simp only [Medium.mirror]
    have e : M.n - (M.n - 1 - i) = i + 1 := by ring
    rw [e]; linarith
  · have := h2 (by simp only [Medium.mirror] at hi; omega)
    simp only [Medium.mirror]
    have e : M.n - (M.n - 1 - i + 1) = i := by ring
    rw [e]; linarith

/-! ## kernels that differ by a factor -/

/-- Multiply what is there. -/
noncomputable def scale3 (c : ℂ) (P : Option ℂ × Option ℂ × Option ℂ) :
    Option ℂ × Option ℂ × Option ℂ :=
  (P.1.map (c * ·), P.2.1.map (c * ·), P.2.2.map (c * ·))

theorem wavenumber_scale {o o' : Ops} (ho : Safe o) (ho' : Safe o') {E E' : Earth}
    {zs zr zs' zr' : ℝ} {s r s' r' : ℤ} {lam : ℝ} {abc : ℕ} {xd xd' msrc mrec : Bool} (c : ℂ)
    (h : abc ≠ 36 → greenfct o' E' zs' zr' s' r' lam abc xd' msrc mrec =
      (c * (greenfct o E zs zr s r lam abc xd msrc mrec).1,
       c * (greenfct o E zs zr s r lam abc xd msrc mrec).2)) :
    wavenumber o' E' zs' zr' s' r' lam abc xd' msrc mrec =
      scale3 c (wavenumber o E zs zr s r lam abc xd msrc mrec) := by
  by_cases h36 : abc = 36
  · subst h36; simp [wavenumber, scale3]
  · have e8 : ∀ (x : ℂ), o.div x (8 * Real.pi) = x / (8 * Real.pi) ∧
        o.div x (-(8 * Real.pi)) = -(x / (8 * Real.pi)) ∧
        o'.div x (8 * Real.pi) = x / (8 * Real.pi) ∧
        o'.div x (-(8 * Real.pi)) = -(x / (8 * Real.pi)) := fun x =>
      ⟨div8 ho x, div8n ho x, div8 ho' x, div8n ho' x⟩
    unfold wavenumber scale3
    simp only [h h36, div4 ho, div4 ho']
    split_ifs <;> simp [e8] <;> ring_nf <;> trivial

/-- Sign of a calculation code under reflection. -/
def codeSign (abc : ℕ) : ℂ := if abc ∈ [14, 15, 24, 25, 13, 23, 31, 32, 36] then -1 else 1

theorem codeSign_eq {a b : ℕ} (ha : 1 ≤ a ∧ a ≤ 6) (hb : 1 ≤ b ∧ b ≤ 6) {abc : ℕ}
    {msrc mrec : Bool} (h : checkAb (.int (10 * a + b)) = .ok (abc, msrc, mrec)) :
    mirrorSign a * mirrorSign b = codeSign abc := by
  rw [checkAb_digits ha hb] at h
  obtain ⟨a1, a2⟩ := ha
  obtain ⟨b1, b2⟩ := hb
  simp only [Except.ok.injEq, Prod.mk.injEq] at h
  obtain ⟨rfl, rfl, rfl⟩ := h
  interval_cases a <;> interval_cases b <;> simp [mirrorSign, codeSign]

theorem wn_mirror {M : Medium} (hM : M.OK) {o o' : Ops} (ho : Safe o) (ho' : Safe o')
    {lam : ℝ} {zs zr : ℝ} {s r : ℤ} {xd : Bool}
    (hs : M.InClosed s zs) (hr : M.InClosed r zr) (hsr : zr = zs → r = s)
    {ab : AbArg} {abc : ℕ} {msrc mrec : Bool} (hab : checkAb ab = .ok (abc, msrc, mrec)) :
    wavenumber o' (earthOf M.mirror) (-zs) (-zr) (M.n - 1 - s) (M.n - 1 - r) lam abc xd msrc mrec =
      scale3 (codeSign abc) (wavenumber o (earthOf M) zs zr s r lam abc xd msrc mrec) := by
  obtain ⟨Ao, Bo, Ae, Be, R1⟩ := resp_exists (OK.tm_ord hM lam) (OK.tm_pas hM lam) hs zr r xd
  obtain ⟨Ao', Bo', Ae', Be', R2⟩ := resp_exists (OK.te_ord hM lam) (OK.te_pas hM lam) hs zr r xd
  have Q1 := resp_mirror (S := M.tm lam) hM.pos R1
  have Q2 := resp_mirror (S := M.te lam) hM.pos R2
  have hN := mirror_ok hM
  have hs' := mirror_closed hs
  have hr' := mirror_closed hr
  have hsr' : -zr = -zs → M.n - 1 - r = M.n - 1 - s := fun h => by rw [hsr (neg_inj.1 h)]
  have es : M.mirror.etaV (M.n - 1 - s) = M.etaV s := by simp [Medium.mirror]
  have er : M.mirror.etaV (M.n - 1 - r) = M.etaV r := by simp [Medium.mirror]
  have zs_ : M.mirror.zetaV (M.n - 1 - s) = M.zetaV s := by simp [Medium.mirror]
  have zr_ : M.mirror.zetaV (M.n - 1 - r) = M.zetaV r := by simp [Medium.mirror]
  apply wavenumber_scale ho ho'
  intro h36
  rcases reach_cases hab with h | ⟨rfl, h⟩ | ⟨rfl, rfl, h⟩ | ⟨rfl, rfl, h⟩
  · exact absurd h h36
  · obtain ⟨a1, a2, a3, a4, a5, a6, a7⟩ :=
      gf_ee (ab := abc) (msrc := msrc) hM ho hs hr hsr R1 R2
    obtain ⟨b1, b2, b3, b4, b5, b6, b7⟩ :=
      gf_ee (ab := abc) (msrc := msrc) hN ho' hs' hr' hsr' Q1 Q2
    rw [es, er] at b7
    rw [es] at b3
    rw [er] at b4 b5
    rw [zs_] at b6
    simp only [List.mem_cons, List.not_mem_nil, or_false] at h
    rcases h with h | h | h | h | h | h | h | h | h | h | h | h | h | h | h | h | h <;> subst h
    · rw [a1 (by simp), b1 (by simp)]; simp [codeSign]
    · rw [a1 (by simp), b1 (by simp)]; simp [codeSign]
    · rw [a1 (by simp), b1 (by simp)]; simp [codeSign]
    · rw [a1 (by simp), b1 (by simp)]; simp [codeSign]
    · rw [a2 (by simp), b2 (by simp)]; simp [codeSign]
    · rw [a2 (by simp), b2 (by simp)]; simp [codeSign]
    · rw [a2 (by simp), b2 (by simp)]; simp [codeSign]
    · rw [a2 (by simp), b2 (by simp)]; simp [codeSign]
    · rw [a3 (by simp), b3 (by simp)]; simp [codeSign]; try ring
    · rw [a3 (by simp), b3 (by simp)]; simp [codeSign]; try ring
    · rw [a4 (by simp), b4 (by simp)]; simp [codeSign]; try ring
    · rw [a4 (by simp), b4 (by simp)]; simp [codeSign]; try ring
    · rw [a5 (by simp), b5 (by simp)]; simp [codeSign]
    · rw [a5 (by simp), b5 (by simp)]; simp [codeSign]
    · rw [a6 (by simp), b6 (by simp)]; simp [codeSign]
    · rw [a6 (by simp), b6 (by simp)]; simp [codeSign]
    · rw [a7 rfl, b7 rfl]; simp [codeSign]
  · obtain ⟨a1, a2, a3, a4⟩ := gf_mm (ab := abc) hM ho hs hr hsr R1 R2
    obtain ⟨b1, b2, b3, b4⟩ := gf_mm (ab := abc) hN ho' hs' hr' hsr' Q1 Q2
    rw [zs_, zr_] at b4
    rw [zs_] at b2
    rw [zr_] at b3
    simp only [List.mem_cons, List.not_mem_nil, or_false] at h
    rcases h with h | h | h | h | h | h | h | h | h <;> subst h
    · rw [a1 (by simp), b1 (by simp)]; simp [codeSign]
    · rw [a1 (by simp), b1 (by simp)]; simp [codeSign]
    · rw [a1 (by simp), b1 (by simp)]; simp [codeSign]
    · rw [a1 (by simp), b1 (by simp)]; simp [codeSign]
    · rw [a2 (by simp), b2 (by simp)]; simp [codeSign]; try ring
    · rw [a2 (by simp), b2 (by simp)]; simp [codeSign]; try ring
    · rw [a3 (by simp), b3 (by simp)]; simp [codeSign]; try ring
    · rw [a3 (by simp), b3 (by simp)]; simp [codeSign]; try ring
    · rw [a4 rfl, b4 rfl]; simp [codeSign]
  · obtain ⟨a1, a2, a3⟩ := gf_me (ab := abc) hM ho hs hr hsr R1 R2
    obtain ⟨b1, b2, b3⟩ := gf_me (ab := abc) hN ho' hs' hr' hsr' Q1 Q2
    rw [es] at b2
    rw [zr_] at b3
    simp only [List.mem_cons, List.not_mem_nil, or_false] at h
    rcases h with h | h | h | h | h | h | h | h <;> subst h
    · rw [a1 (by simp), b1 (by simp)]; simp [codeSign]
    · rw [a1 (by simp), b1 (by simp)]; simp [codeSign]
    · rw [a1 (by simp), b1 (by simp)]; simp [codeSign]
    · rw [a1 (by simp), b1 (by simp)]; simp [codeSign]
    · rw [a2 (by simp), b2 (by simp)]; simp [codeSign]
    · rw [a2 (by simp), b2 (by simp)]; simp [codeSign]
    · rw [a3 (by simp), b3 (by simp)]; simp [codeSign]
    · rw [a3 (by simp), b3 (by simp)]; simp [codeSign]

theorem resp_zero {S : Stack} (ho : S.Ordered) (hp : S.Passive) {s : ℤ} {zs : ℝ}
    (hs : S.InClosed s zs) (hST : Same S (homog S s)) (zr : ℝ) :
    Resp S zs zr s s true 0 0 0 0 := by
  obtain ⟨A, B, h1⟩ := field_exists ho hp hs 2 0
  obtain ⟨A', B', h1'⟩ := field_exists ho hp hs 0 (-2)
  refine ⟨⟨A, B, A, B, h1, same_field ho.pos hST h1, ?_, ?_⟩,
    ⟨A', B', A', B', h1', same_field ho.pos hST h1', ?_, ?_⟩⟩ <;> simp [xval]

theorem wn_zero {M : Medium} (hM : M.OK) {o : Ops} (ho : Safe o)
    {lam : ℝ} {zs zr : ℝ} {s r : ℤ} {xd : Bool}
    (hs : M.InClosed s zs) (hr : M.InClosed r zr) (hsr : zr = zs → r = s)
    (R1 : Resp (M.tm lam) zs zr s r xd 0 0 0 0) (R2 : Resp (M.te lam) zs zr s r xd 0 0 0 0)
    {ab : AbArg} {abc : ℕ} {msrc mrec : Bool} (hab : checkAb ab = .ok (abc, msrc, mrec)) :
    wavenumber o (earthOf M) zs zr s r lam abc xd msrc mrec =
      scale3 0 (wavenumber o (earthOf M) zs zr s r lam abc xd msrc mrec) := by
  apply wavenumber_scale ho ho
  intro h36
  rcases reach_cases hab with h | ⟨rfl, h⟩ | ⟨rfl, rfl, h⟩ | ⟨rfl, rfl, h⟩
  · exact absurd h h36
  · obtain ⟨a1, a2, a3, a4, a5, a6, a7⟩ :=
      gf_ee (ab := abc) (msrc := msrc) hM ho hs hr hsr R1 R2
    simp only [List.mem_cons, List.not_mem_nil, or_false] at h
    rcases h with h | h | h | h | h | h | h | h | h | h | h | h | h | h | h | h | h <;> subst h
    · rw [a1 (by simp)]; simp
    · rw [a1 (by simp)]; simp
    · rw [a1 (by simp)]; simp
    · rw [a1 (by simp)]; simp
    · rw [a2 (by simp)]; simp
    · rw [a2 (by simp)]; simp
    · rw [a2 (by simp)]; simp
    · rw [a2 (by simp)]; simp
    · rw [a3 (by simp)]; simp
    · rw [a3 (by simp)]; simp
    · rw [a4 (by simp)]; simp
    · rw [a4 (by simp)]; simp
    · rw [a5 (by simp)]; simp
    · rw [a5 (by simp)]; simp
    · rw [a6 (by simp)]; simp
    · rw [a6 (by simp)]; simp
    · rw [a7 rfl]; simp
  · obtain ⟨a1, a2, a3, a4⟩ := gf_mm (ab := abc) hM ho hs hr hsr R1 R2
    simp only [List.mem_cons, List.not_mem_nil, or_false] at h
    rcases h with h | h | h | h | h | h | h | h | h <;> subst h
    · rw [a1 (by simp)]; simp
    · rw [a1 (by simp)]; simp
    · rw [a1 (by simp)]; simp
    · rw [a1 (by simp)]; simp
    · rw [a2 (by simp)]; simp
    · rw [a2 (by simp)]; simp
    · rw [a3 (by simp)]; simp
    · rw [a3 (by simp)]; simp
    · rw [a4 rfl]; simp
  · obtain ⟨a1, a2, a3⟩ := gf_me (ab := abc) hM ho hs hr hsr R1 R2
    simp only [List.mem_cons, List.not_mem_nil, or_false] at h
    rcases h with h | h | h | h | h | h | h | h <;> subst h
    · rw [a1 (by simp)]; simp
    · rw [a1 (by simp)]; simp
    · rw [a1 (by simp)]; simp
    · rw [a1 (by simp)]; simp
    · rw [a2 (by simp)]; simp
    · rw [a2 (by simp)]; simp
    · rw [a3 (by simp)]; simp
    · rw [a3 (by simp)]; simp

/-! ## reciprocity -/

theorem plane_recip {M : Medium} (hM : M.OK) {lam : ℝ} (hlam : lam ≠ 0) {s r : ℤ} {zs zr : ℝ}
    {xd : Bool} (hs : M.InClosed s zs) (hr : M.InClosed r zr) {a b : ℕ} (ha : 1 ≤ a ∧ a ≤ 6)
    (hb : 1 ≤ b ∧ b ≤ 6) {F Fh G Gh : PlaneField} (φ : ℝ)
    (hF : IsPlaneField M (lam * Real.cos φ) (lam * Real.sin φ) zs s (unitDipole b) F)
    (hFh : IsPlaneField (M.homog s) (lam * Real.cos φ) (lam * Real.sin φ) zs 0 (unitDipole b) Fh)
    (hG : IsPlaneField M (lam * Real.cos (φ + Real.pi)) (lam * Real.sin (φ + Real.pi)) zr r
      (unitDipole a) G)
    (hGh : IsPlaneField (M.homog r) (lam * Real.cos (φ + Real.pi)) (lam * Real.sin (φ + Real.pi))
      zr 0 (unitDipole a) Gh) :
    xcomp xd s r F Fh a zr = recipSign a * recipSign b * xcomp xd r s G Gh b zs := by
  obtain ⟨Ao, Bo, Ae, Be, R1⟩ := resp_exists (OK.tm_ord hM lam) (OK.tm_pas hM lam) hs zr r xd
  obtain ⟨Ao', Bo', Ae', Be', R2⟩ := resp_exists (OK.te_ord hM lam) (OK.te_pas hM lam) hs zr r xd
  have Q1 := resp_recip (OK.tm_ord hM lam) (OK.tm_pas hM lam) hs hr R1
  have Q2 := resp_recip (OK.te_ord hM lam) (OK.te_pas hM lam) hs hr R2
  obtain ⟨f1, f2, f3, f4, f5, f6⟩ := plane_polar hM hlam hs hr φ hF hFh R1 R2
  obtain ⟨g1, g2, g3, g4, g5, g6⟩ := plane_polar hM hlam hr hs (φ + Real.pi) hG hGh Q1 Q2
  have v1 := ne_of_re_pos (hM.pas s hs.1 hs.2.1).etaV_re
  have v2 := ne_of_re_pos (hM.pas r hr.1 hr.2.1).etaV_re
  have v3 := (hM.pas s hs.1 hs.2.1).zetaV_ne
  have v4 := (hM.pas r hr.1 hr.2.1).zetaV_ne
  simp only [Real.cos_add_pi, Real.sin_add_pi] at g1 g2 g3 g4 g5 g6
  obtain ⟨a1, a2⟩ := ha
  obtain ⟨b1, b2⟩ := hb
  interval_cases a <;> interval_cases b <;>
    simp only [f1, f2, f3, f4, f5, f6, g1, g2, g3, g4, g5, g6, recipSign, unitDipole, if_true,
      if_false, Nat.reduceEqDiff, OfNat.ofNat_ne_one, OfNat.one_ne_ofNat, Nat.reduceLeDiff,
      le_refl] <;> push_cast <;> field_simp <;> ring

end Verif.Lemmas
