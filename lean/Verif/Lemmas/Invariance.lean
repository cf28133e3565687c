import Verif.Lemmas.Angle
import Mathlib.Analysis.Calculus.FDeriv.Extend

/-! Helper lemmas: fields of equivalent, shifted and mirrored media. -/

namespace Verif.Lemmas
open Verif.Spec Verif.Spec.Stack Verif.Kernel Verif.Transform Verif.Utils Complex Filter Topology

/-- Two stacks have the same coefficients at every depth (except on interfaces). -/
def Same (S T : Stack) : Prop :=
  ∀ i j z, S.InOpen i z → T.InOpen j z → S.e i = T.e j ∧ S.q i = T.q j

theorem same_deriv {S T : Stack} (hn : 0 < S.n) {zs : ℝ} {f : ℝ → ℂ} {g : ℝ → ℂ} {c : ℂ} {j : ℤ}
    {z : ℝ} (hj : T.InOpen j z) (hz : z ≠ zs) (hcf : ContinuousAt f z) (hcg : ContinuousAt g z)
    (hd : ∀ y, T.InOpen j y → y ≠ zs → ¬ S.IsInterface y → HasDerivAt f (c * g y) y) :
    HasDerivAt f (c * g z) z := by
  by_cases hi : S.IsInterface z
  swap
  · exact hd z hj hz hi
  have hopen : ∀ᶠ y in 𝓝 z, T.InOpen j y := (isOpen_inOpen (M := T) j).eventually_mem hj
  have hzs : ∀ᶠ y in 𝓝 z, y ≠ zs := isOpen_ne.eventually_mem hz
  have hfin : ∀ᶠ y in 𝓝 z, y ∉ ((ifaces S).erase z : Finset ℝ) := by
    have hcl : IsClosed (((ifaces S).erase z : Finset ℝ) : Set ℝ) := Finset.isClosed _
    exact hcl.isOpen_compl.eventually_mem (by simp)
  have hall : ∀ᶠ y in 𝓝 z, y ≠ z → HasDerivAt f (c * g y) y := by
    filter_upwards [hopen, hzs, hfin] with y h1 h2 h3 h4
    refine hd y h1 h2 fun h5 => h3 ?_
    rw [Finset.mem_erase]
    exact ⟨h4, mem_ifaces.2 h5⟩
  obtain ⟨ε, hε, hball⟩ := Metric.eventually_nhds_iff_ball.1 hall
  have hcg' : ContinuousAt (fun y => c * g y) z := hcg.const_mul c
  have A : HasDerivWithinAt f (c * g z) (Set.Ici z) z := by
    apply hasDerivWithinAt_Ici_of_tendsto_deriv (s := Set.Ioo z (z + ε)) _
      hcf.continuousWithinAt (Ioo_mem_nhdsGT (by linarith))
    · have : Tendsto (fun y => c * g y) (𝓝[>] z) (𝓝 (c * g z)) := tendsto_inf_left hcg'
      refine this.congr' ?_
      filter_upwards [Ioo_mem_nhdsGT (show z < z + ε by linarith)] with y hy
      refine (hball y ?_ hy.1.ne').deriv.symm
      rw [Metric.mem_ball, Real.dist_eq, abs_lt]; constructor <;> linarith [hy.1, hy.2]
    · intro y hy
      refine (hball y ?_ hy.1.ne').differentiableAt.differentiableWithinAt
      rw [Metric.mem_ball, Real.dist_eq, abs_lt]; constructor <;> linarith [hy.1, hy.2]
  have B : HasDerivWithinAt f (c * g z) (Set.Iic z) z := by
    apply hasDerivWithinAt_Iic_of_tendsto_deriv (s := Set.Ioo (z - ε) z) _
      hcf.continuousWithinAt (Ioo_mem_nhdsLT (by linarith))
    · have : Tendsto (fun y => c * g y) (𝓝[<] z) (𝓝 (c * g z)) := tendsto_inf_left hcg'
      refine this.congr' ?_
      filter_upwards [Ioo_mem_nhdsLT (show z - ε < z by linarith)] with y hy
      refine (hball y ?_ hy.2.ne).deriv.symm
      rw [Metric.mem_ball, Real.dist_eq, abs_lt]; constructor <;> linarith [hy.1, hy.2]
    · intro y hy
      refine (hball y ?_ hy.2.ne).differentiableAt.differentiableWithinAt
      rw [Metric.mem_ball, Real.dist_eq, abs_lt]; constructor <;> linarith [hy.1, hy.2]
  simpa using B.union A

/-- Equivalent stacks have the same fields. -/
theorem same_field {S T : Stack} (hn : 0 < S.n) (hST : Same S T) {zs : ℝ} {jA jB : ℂ}
    {A B : ℝ → ℂ} (h : S.IsField zs jA jB A B) : T.IsField zs jA jB A B where
  odeA j z hj hz := by
    obtain ⟨cA, cB⟩ := field_continuousAt hn h hz
    refine same_deriv (S := S) hn hj hz cA cB fun y hy hyz hyi => ?_
    obtain ⟨i, hi⟩ := exists_open hn hyi
    rw [← (hST i j y hi hy).1]
    exact h.odeA i y hi hyz
  odeB j z hj hz := by
    obtain ⟨cA, cB⟩ := field_continuousAt hn h hz
    refine same_deriv (S := S) hn hj hz cB cA fun y hy hyz hyi => ?_
    obtain ⟨i, hi⟩ := exists_open hn hyi
    rw [← (hST i j y hi hy).2]
    exact h.odeB i y hi hyz
  contA z _ hz := (field_continuousAt hn h hz).1
  contB z _ hz := (field_continuousAt hn h hz).2
  jumpA := h.jumpA
  jumpB := h.jumpB
  decayA := h.decayA
  decayB := h.decayB

/-- Two media have the same properties at every depth (except on interfaces). -/
def SameMedium (M N : Medium) : Prop :=
  ∀ i j z, M.InOpen i z → N.InOpen j z → M.etaH i = N.etaH j ∧ M.etaV i = N.etaV j ∧
    M.zetaH i = N.zetaH j ∧ M.zetaV i = N.zetaV j

theorem SameMedium.tm {M N : Medium} (h : SameMedium M N) (lam : ℝ) :
    Same (M.tm lam) (N.tm lam) := by
  intro i j z hi hj
  obtain ⟨h1, h2, h3, h4⟩ := h i j z hi hj
  exact ⟨h1, by simp only [Medium.tm, h2, h3]⟩

theorem SameMedium.te {M N : Medium} (h : SameMedium M N) (lam : ℝ) :
    Same (M.te lam) (N.te lam) := by
  intro i j z hi hj
  obtain ⟨h1, h2, h3, h4⟩ := h i j z hi hj
  exact ⟨h3, by simp only [Medium.te, h1, h4]⟩

theorem resp_same {S T : Stack} (hn : 0 < S.n) (hST : Same S T) {zs zr : ℝ} {s r s' r' : ℤ}
    {xd : Bool} {Ao Bo Ae Be : ℂ} (hes : S.e s = T.e s') (hqs : S.q s = T.q s')
    (hx : xd = true → (r = s ↔ r' = s'))
    (R : Resp S zs zr s r xd Ao Bo Ae Be) : Resp T zs zr s' r' xd Ao Bo Ae Be := by
  have hh : Same (homog S s) (homog T s') := fun i j z _ _ => ⟨hes, hqs⟩
  have e : (xd = true ∧ r = s) = (xd = true ∧ r' = s') := by
    apply propext
    constructor
    · rintro ⟨h1, h2⟩; exact ⟨h1, (hx h1).1 h2⟩
    · rintro ⟨h1, h2⟩; exact ⟨h1, (hx h1).2 h2⟩
  obtain ⟨⟨A, B, C, D, f1, f2, rfl, rfl⟩, ⟨A', B', C', D', f1', f2', rfl, rfl⟩⟩ := R
  have one : 0 < (homog S s).n := by simp [homog]
  refine ⟨⟨A, B, C, D, same_field hn hST f1, same_field one hh f2, ?_, ?_⟩,
    ⟨A', B', C', D', same_field hn hST f1', same_field one hh f2', ?_, ?_⟩⟩ <;>
  · unfold xval; simp only [e]

/-! ## Codes produced by `check_ab` -/

theorem reach {ab : AbArg} {abc : ℕ} {msrc mrec : Bool} (h : checkAb ab = .ok (abc, msrc, mrec)) :
    ∃ a b : ℕ, (1 ≤ a ∧ a ≤ 6) ∧ (1 ≤ b ∧ b ≤ 6) ∧
      toInt ab = .ok (10 * a + b) ∧ checkAb (.int (10 * a + b)) = .ok (abc, msrc, mrec) := by
  unfold checkAb at h
  cases hi : toInt ab with
  | error e => rw [hi] at h; cases h
  | ok n =>
    rw [hi] at h
    change checkAbInt n = _ at h
    by_cases hm : n ∈ pab
    swap
    · rw [checkAbInt, if_pos hm] at h; cases h
    have : ∃ a b : ℕ, (1 ≤ a ∧ a ≤ 6) ∧ (1 ≤ b ∧ b ≤ 6) ∧ n = 10 * a + b := by
      refine ⟨(n / 10).toNat, (n % 10).toNat, ?_⟩
      simp only [pab, List.mem_cons, List.not_mem_nil, or_false] at hm
      omega
    obtain ⟨a, b, ha, hb, rfl⟩ := this
    exact ⟨a, b, ha, hb, rfl, h⟩

/-- The calculation codes that can occur. -/
theorem reach_cases {ab : AbArg} {abc : ℕ} {msrc mrec : Bool}
    (h : checkAb ab = .ok (abc, msrc, mrec)) :
    abc = 36 ∨
    (mrec = false ∧ abc ∈ [11, 12, 21, 22, 14, 15, 24, 25, 13, 23, 31, 32, 34, 35, 16, 26, 33]) ∨
    (mrec = true ∧ msrc = true ∧ abc ∈ [11, 12, 21, 22, 13, 23, 31, 32, 33]) ∨
    (mrec = true ∧ msrc = false ∧ abc ∈ [14, 15, 24, 25, 34, 35, 16, 26]) := by
  obtain ⟨a, b, ha, hb, -, h2⟩ := reach h
  rw [checkAb_digits ha hb] at h2
  obtain ⟨a1, a2⟩ := ha
  obtain ⟨b1, b2⟩ := hb
  simp only [Except.ok.injEq, Prod.mk.injEq] at h2
  obtain ⟨rfl, rfl, rfl⟩ := h2
  interval_cases a <;> interval_cases b <;> simp

theorem wavenumber_congr {o o' : Ops} (ho : Safe o) (ho' : Safe o') {E E' : Earth}
    {zs zr zs' zr' : ℝ} {s r s' r' : ℤ} {lam : ℝ} {abc : ℕ} {xd xd' msrc mrec : Bool}
    (h : abc ≠ 36 → greenfct o E zs zr s r lam abc xd msrc mrec =
      greenfct o' E' zs' zr' s' r' lam abc xd' msrc mrec) :
    wavenumber o E zs zr s r lam abc xd msrc mrec =
      wavenumber o' E' zs' zr' s' r' lam abc xd' msrc mrec := by
  by_cases h36 : abc = 36
  · subst h36; simp [wavenumber]
  · have e8 : ∀ (sg : ℂ) (x : ℂ), sg = 1 ∨ sg = -1 →
        o.div x (sg * 8 * Real.pi) = o'.div x (sg * 8 * Real.pi) := by
      intro sg x hs
      have : sg * 8 * (Real.pi : ℂ) ≠ 0 := by rcases hs with rfl | rfl <;> simp [Real.pi_ne_zero]
      rw [ho.div _ _ this, ho'.div _ _ this]
    unfold wavenumber
    simp only [h h36, div4 ho, div4 ho']
    split_ifs <;> first | rfl | (rw [e8 _ _ (by simp)])

/-- The 1-D responses determine what the kernel returns. -/
theorem wn_det {M N : Medium} (hM : M.OK) (hN : N.OK) {o o' : Ops} (ho : Safe o) (ho' : Safe o')
    {lam : ℝ} {zs zr zs' zr' : ℝ} {s r s' r' : ℤ} {xd : Bool}
    (hs : M.InClosed s zs) (hr : M.InClosed r zr) (hsr : zr = zs → r = s)
    (hs' : N.InClosed s' zs') (hr' : N.InClosed r' zr') (hsr' : zr' = zs' → r' = s')
    {Ao Bo Ae Be Ao' Bo' Ae' Be' : ℂ}
    (R1 : Resp (M.tm lam) zs zr s r xd Ao Bo Ae Be)
    (R2 : Resp (M.te lam) zs zr s r xd Ao' Bo' Ae' Be')
    (Q1 : Resp (N.tm lam) zs' zr' s' r' xd Ao Bo Ae Be)
    (Q2 : Resp (N.te lam) zs' zr' s' r' xd Ao' Bo' Ae' Be')
    (es : M.etaV s = N.etaV s') (er : M.etaV r = N.etaV r')
    (zs_ : M.zetaV s = N.zetaV s') (zr_ : M.zetaV r = N.zetaV r')
    {ab : AbArg} {abc : ℕ} {msrc mrec : Bool} (hab : checkAb ab = .ok (abc, msrc, mrec)) :
    wavenumber o (earthOf M) zs zr s r lam abc xd msrc mrec =
      wavenumber o' (earthOf N) zs' zr' s' r' lam abc xd msrc mrec := by
  apply wavenumber_congr ho ho'
  intro h36
  rcases reach_cases hab with h | ⟨rfl, h⟩ | ⟨rfl, rfl, h⟩ | ⟨rfl, rfl, h⟩
  · exact absurd h h36
  · obtain ⟨a1, a2, a3, a4, a5, a6, a7⟩ :=
      gf_ee (ab := abc) (msrc := msrc) hM ho hs hr hsr R1 R2
    obtain ⟨b1, b2, b3, b4, b5, b6, b7⟩ :=
      gf_ee (ab := abc) (msrc := msrc) hN ho' hs' hr' hsr' Q1 Q2
    rw [← es, ← er] at b7
    rw [← es] at b3
    rw [← er] at b4 b5
    rw [← zs_] at b6
    simp only [List.mem_cons, List.not_mem_nil, or_false] at h
    rcases h with h | h | h | h | h | h | h | h | h | h | h | h | h | h | h | h | h <;> subst h
    · rw [a1 (by simp), b1 (by simp)]
    · rw [a1 (by simp), b1 (by simp)]
    · rw [a1 (by simp), b1 (by simp)]
    · rw [a1 (by simp), b1 (by simp)]
    · rw [a2 (by simp), b2 (by simp)]
    · rw [a2 (by simp), b2 (by simp)]
    · rw [a2 (by simp), b2 (by simp)]
    · rw [a2 (by simp), b2 (by simp)]
    · rw [a3 (by simp), b3 (by simp)]
    · rw [a3 (by simp), b3 (by simp)]
    · rw [a4 (by simp), b4 (by simp)]
    · rw [a4 (by simp), b4 (by simp)]
    · rw [a5 (by simp), b5 (by simp)]
    · rw [a5 (by simp), b5 (by simp)]
    · rw [a6 (by simp), b6 (by simp)]
    · rw [a6 (by simp), b6 (by simp)]
    · rw [a7 rfl, b7 rfl]
  · obtain ⟨a1, a2, a3, a4⟩ := gf_mm (ab := abc) hM ho hs hr hsr R1 R2
    obtain ⟨b1, b2, b3, b4⟩ := gf_mm (ab := abc) hN ho' hs' hr' hsr' Q1 Q2
    rw [← zs_, ← zr_] at b4
    rw [← zs_] at b2
    rw [← zr_] at b3
    simp only [List.mem_cons, List.not_mem_nil, or_false] at h
    rcases h with h | h | h | h | h | h | h | h | h <;> subst h
    · rw [a1 (by simp), b1 (by simp)]
    · rw [a1 (by simp), b1 (by simp)]
    · rw [a1 (by simp), b1 (by simp)]
    · rw [a1 (by simp), b1 (by simp)]
    · rw [a2 (by simp), b2 (by simp)]
    · rw [a2 (by simp), b2 (by simp)]
    · rw [a3 (by simp), b3 (by simp)]
    · rw [a3 (by simp), b3 (by simp)]
    · rw [a4 rfl, b4 rfl]
  · obtain ⟨a1, a2, a3⟩ := gf_me (ab := abc) hM ho hs hr hsr R1 R2
    obtain ⟨b1, b2, b3⟩ := gf_me (ab := abc) hN ho' hs' hr' hsr' Q1 Q2
    rw [← es] at b2
    rw [← zr_] at b3
    simp only [List.mem_cons, List.not_mem_nil, or_false] at h
    rcases h with h | h | h | h | h | h | h | h <;> subst h
    · rw [a1 (by simp), b1 (by simp)]
    · rw [a1 (by simp), b1 (by simp)]
    · rw [a1 (by simp), b1 (by simp)]
    · rw [a1 (by simp), b1 (by simp)]
    · rw [a2 (by simp), b2 (by simp)]
    · rw [a2 (by simp), b2 (by simp)]
    · rw [a3 (by simp), b3 (by simp)]
    · rw [a3 (by simp), b3 (by simp)]

/-- Equivalent media give the same kernels. -/
theorem wn_same {M N : Medium} (hM : M.OK) (hN : N.OK) (hMN : SameMedium M N) {o o' : Ops}
    (ho : Safe o) (ho' : Safe o') {lam : ℝ} {zs zr : ℝ} {s r s' r' : ℤ} {xd : Bool}
    (hs : M.InClosed s zs) (hr : M.InClosed r zr) (hsr : zr = zs → r = s)
    (hs' : N.InClosed s' zs) (hr' : N.InClosed r' zr) (hsr' : zr = zs → r' = s')
    (eh : M.etaH s = N.etaH s') (es : M.etaV s = N.etaV s') (er : M.etaV r = N.etaV r')
    (zh : M.zetaH s = N.zetaH s') (zs_ : M.zetaV s = N.zetaV s') (zr_ : M.zetaV r = N.zetaV r')
    (hx : xd = true → (r = s ↔ r' = s'))
    {ab : AbArg} {abc : ℕ} {msrc mrec : Bool} (hab : checkAb ab = .ok (abc, msrc, mrec)) :
    wavenumber o (earthOf M) zs zr s r lam abc xd msrc mrec =
      wavenumber o' (earthOf N) zs zr s' r' lam abc xd msrc mrec := by
  obtain ⟨Ao, Bo, Ae, Be, R1⟩ := resp_exists (OK.tm_ord hM lam) (OK.tm_pas hM lam) hs zr r xd
  obtain ⟨Ao', Bo', Ae', Be', R2⟩ := resp_exists (OK.te_ord hM lam) (OK.te_pas hM lam) hs zr r xd
  refine wn_det hM hN ho ho' hs hr hsr hs' hr' hsr' R1 R2 ?_ ?_ es er zs_ zr_ hab
  · exact resp_same hM.pos (hMN.tm lam) eh (by simp only [Medium.tm, es, zh]) hx R1
  · exact resp_same hM.pos (hMN.te lam) zh (by simp only [Medium.te, zs_, eh]) hx R2

end Verif.Lemmas
