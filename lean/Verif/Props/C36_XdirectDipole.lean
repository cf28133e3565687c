import Verif.Props.C45_Decay

/-!
# C36: the three settings of `xdirect` in `dipole`

With exact integration, `xdirect=True` (closed form) and `xdirect=False` (inside the Hankel transform) differ from
`xdirect=None` (no direct field) by the same thing.
-/

namespace Verif.Props
open Verif.Spec Verif.Py Verif.Py.W Verif.Utils Verif.Model Verif.Kernel Verif.Transform Verif.Fullspace
  Verif.Lemmas Verif.Lemmas.Full MeasureTheory Set

/-- What exact integration makes of the part of the field with and without direct field. -/
theorem split_direct {M : Medium} (hM : M.OK) (hP : ∀ i, 0 ≤ i → i < M.n → Physical (layerMed M i)) {s r : ℤ}
    {zs zr : ℝ} (hs : M.InClosed s zs) (hr : M.InClosed r zr) (hz : zs ≠ zr) (hd : s = r ∨ M.Uniform s) {ρ : ℝ}
    (hρ : 0 < ρ) (θ : ℝ) {sqrt : ℂ → ℂ} (hq : IsSqrt sqrt) {meds : List Med} (hp : ∀ m ∈ meds, Physical m) {i : ℕ}
    (hi : i < meds.length) (hE : meds[i] = layerMed M r) {a b : ℕ} (ha : 1 ≤ a ∧ a ≤ 6) (hb : 1 ≤ b ∧ b ≤ 6)
    (hmm : 4 ≤ a → 4 ≤ b → Oscillating meds[i]) {F Fh : ℝ → ℝ → PlaneField}
    (hF : ∀ lam > 0, ∀ φ, IsPlaneField M (lam * Real.cos φ) (lam * Real.sin φ) zs s (unitDipole b) (F lam φ))
    (hH : ∀ lam > 0, ∀ φ, IsPlaneField (M.homog s) (lam * Real.cos φ) (lam * Real.sin φ) zs 0 (unitDipole b)
      (Fh lam φ)) :
    ∫ lam in Ioi (0 : ℝ), ringIntegral (fun φ => (F lam φ).comp a r zr) lam ρ θ =
      (∫ lam in Ioi (0 : ℝ), ringIntegral (fun φ => (F lam φ).comp a r zr - (Fh lam φ).comp a 0 zr) lam ρ θ) +
      resp sqrt meds i a b (ρ * Real.cos θ) (ρ * Real.sin θ) zs zr := by
  have hEs : meds[i] = layerMed M s := by
    rcases hd with rfl | hu
    · exact hE
    · obtain ⟨u1, u2, u3, u4⟩ := hu r hr.1 hr.2.1
      rw [hE]; simp only [layerMed, u1, u2, u3, u4]
  have hpw := C36_plane_waves hM hs.1 hs.2.1 hq hp hi hEs ha hb hmm θ hz hρ hH
  rw [← hpw.2]
  obtain ⟨c, ms, mr, hc⟩ : ∃ c ms mr, checkAb (.int (10 * a + b)) = .ok (c, ms, mr) :=
    ⟨_, _, _, checkAb_digits ha hb⟩
  by_cases hu : M.Uniform s
  · have e : ∀ lam > 0, ∀ φ, (F lam φ).comp a r zr = (Fh lam φ).comp a 0 zr := fun lam hl φ =>
      plane_uniform hM hl φ hs hr hu (hF lam hl φ) (hH lam hl φ) ha
    have e1 : ∫ lam in Ioi (0 : ℝ), ringIntegral (fun φ => (F lam φ).comp a r zr) lam ρ θ =
        ∫ lam in Ioi (0 : ℝ), ringIntegral (fun φ => (Fh lam φ).comp a 0 zr) lam ρ θ :=
      setIntegral_congr_fun measurableSet_Ioi fun lam hl => by
        simp only [e lam hl]
    have e2 : ∫ lam in Ioi (0 : ℝ), ringIntegral (fun φ => (F lam φ).comp a r zr - (Fh lam φ).comp a 0 zr) lam ρ θ =
        ∫ _ in Ioi (0 : ℝ), (0 : ℂ) :=
      setIntegral_congr_fun measurableSet_Ioi fun lam hl => by
        simp [e lam hl, ringIntegral]
    rw [e1, e2]; simp
  · obtain rfl : s = r := hd.resolve_right hu
    have w : ∀ (xd : Bool), ∀ lam > 0,
        waveIntegrand Ops.exact (earthOf M) zs zr s s c xd ms mr ρ (exactFactor θ c ms mr) lam =
          ringIntegral (fun φ => xcomp xd s s (F lam φ) (Fh lam φ) a zr) lam ρ θ := fun xd lam hl =>
      wave_ring safe_exact hM hs hr (fun _ => rfl) xd hρ θ ha hb hc hF hH hl
    have hI : ∀ xd, IntegrableOn (waveIntegrand Ops.exact (earthOf M) zs zr s s c xd ms mr ρ
        (exactFactor θ c ms mr)) (Ioi 0) := fun xd =>
      (integrand_all safe_exact hM hP hs hr hz xd ρ (exactFactor θ c ms mr) ha hb hc).int
    have e1 : ∫ lam in Ioi (0 : ℝ), ringIntegral (fun φ => (F lam φ).comp a s zr) lam ρ θ =
        ∫ lam in Ioi (0 : ℝ), waveIntegrand Ops.exact (earthOf M) zs zr s s c false ms mr ρ
          (exactFactor θ c ms mr) lam :=
      setIntegral_congr_fun measurableSet_Ioi fun lam hl => by
        beta_reduce
        rw [w false lam hl]; simp [xcomp]
    have e2 : ∫ lam in Ioi (0 : ℝ), ringIntegral (fun φ => (F lam φ).comp a s zr - (Fh lam φ).comp a 0 zr) lam ρ θ =
        ∫ lam in Ioi (0 : ℝ), waveIntegrand Ops.exact (earthOf M) zs zr s s c true ms mr ρ
          (exactFactor θ c ms mr) lam :=
      setIntegral_congr_fun measurableSet_Ioi fun lam hl => by
        beta_reduce
        rw [w true lam hl]; simp [xcomp]
    rw [e1, e2, hpw.2]
    by_cases h36 : c = 36
    · have z : ∀ xd, waveIntegrand Ops.exact (earthOf M) zs zr s s c xd ms mr ρ (exactFactor θ c ms mr) =
          fun _ => 0 := by
        intro xd; subst h36; funext lam
        simp [waveIntegrand, wavenumber, hankelIntegrand]
      rw [z, z, resp_ok hi hc, if_neg (not_not.2 h36)]; simp
    · have key := (C36_sommerfeld safe_exact hq (earthOf M) s hp hi hEs ha hb hmm hc h36 θ hz hρ).2
      rw [← key]
      have := integral_sub (hI false) (hI true)
      unfold waveIntegrand at this ⊢
      rw [this]; ring

open Classical in
/-- **C36, the three settings of `xdirect`.**  Every medium, all coordinates with source and receiver at different
depths, every component pair: with exact integration `dipole` succeeds for all three settings, and for each entry
`xdirect=True` and `xdirect=False` both add the closed form of the field in a homogeneous medium to what
`xdirect=None` returns if source and receiver are in the same layer (or all layers are identical), and nothing
otherwise.  `True` takes it at the azimuth `θ`, `False` at an azimuth within `1e-9`, because of the snapping of
the angle factors. -/
theorem C36_xdirect {B : Back} (hm : 0 < B.m.minRes) (hfr : 0 < B.m.minFreq) (hof : 0 < B.m.minOff)
    (ho : Safe B.o) (hq : IsSqrt B.sqrt)
    (hB : Uses B (besselRule fun _ g => ∫ lam in Ioi (0 : ℝ), g lam)) {A : DipoleArgs}
    {U : UserModel} (hU : U.Valid B.m.minRes) (hA : Describes A U) {a b : ℕ} (ha : 1 ≤ a ∧ a ≤ 6)
    (hb : 1 ≤ b ∧ b ≤ 6) (hab : toInt A.ab = .ok (10 * a + b)) {xs ys xr yr : List ℝ} {zs zr : ℝ}
    (hsrc : A.src = [xs, ys, [zs]]) (hrcv : A.rcv = [xr, yr, [zr]]) (hz : zs ≠ zr)
    (hls : xs.length = ys.length ∨ xs.length = 1 ∨ ys.length = 1)
    (hlr : xr.length = yr.length ∨ xr.length = 1 ∨ yr.length = 1)
    (ns : 0 < numDipoles A.src) (nr : 0 < numDipoles A.rcv)
    (hmm : 4 ≤ a → 4 ≤ b → (∃ g ∈ A.freq, 0 < g) ∧ ∀ k < U.z.length + 1, 0 < U.epsH k) :
    ∃ arr : Option Bool → NdArray,
      (∀ x, (dipole B { A with xdirect := x }).val =
        .ok (if A.squeeze then (arr x).squeeze else arr x) ∧
        (arr x).shape = [A.freq.length, numDipoles A.rcv, numDipoles A.src]) ∧
      ∀ (f r s : ℕ) (hf : f < A.freq.length), r < numDipoles A.rcv → s < numDipoles A.src →
        let M := fun g => U.medium (sParam B.m.minFreq A.freq g)
        let ρ := rhoOf B.m.minOff (bc xr r - bc xs s) (bc yr r - bc ys s)
        let θ := thetaOf (bc xr r - bc xs s) (bc yr r - bc ys s)
        ∃ θ', |θ' - θ| ≤ 1e-9 ∧ ∀ ls lr, (M A.freq[f]).InUpper ls zs → (M A.freq[f]).InUpper lr zr →
          let direct := fun t => if ls = lr ∨ U.Uniform then
            resp B.sqrt (A.freq.map fun g => layerMed (M g) lr) f a b (ρ * Real.cos t) (ρ * Real.sin t) zs zr else 0
          (arr (some true)).get [f, r, s] = (arr none).get [f, r, s] + direct θ ∧
          (arr (some false)).get [f, r, s] = (arr none).get [f, r, s] + direct θ' := by
  obtain ⟨c, ms, mr, hc⟩ : ∃ c ms mr, checkAb (.int (10 * a + b)) = .ok (c, ms, mr) :=
    ⟨_, _, _, checkAb_digits ha hb⟩
  have main := fun x : Option Bool => dipole_at hm hfr hof ho exact_rule hB hU (describes_xdirect hA x) ha hb hab
    hsrc hrcv hls hlr hc ns nr
  choose arr h1 h2 h3 using main
  refine ⟨arr, fun x => ⟨h1 x, h2 x⟩, ?_⟩
  intro f r s hf hr hs M ρ θ
  obtain ⟨θ', hθ, hθe⟩ := angle_near θ c ms mr
  refine ⟨θ', hθ, fun ls lr hsu hru => ?_⟩
  have hρ : 0 < ρ := lt_max_of_lt_right hof
  have hsc := upper_closed hsu
  have hrc := upper_closed hru
  obtain ⟨s0, sre⟩ := sParam_spec hfr A.freq A.freq[f]
  have hM : (M A.freq[f]).OK := user_ok hm hU s0 sre
  obtain ⟨F, hF⟩ := plane_family hM hsc (unitDipole b)
  obtain ⟨Fh, hH⟩ := plane_family (OK.homog hM hsc.1 hsc.2.1) (homog_closed _ ls zs) (unitDipole b)
  have hP : ∀ g, ∀ i, 0 ≤ i → i < (M g).n → Physical (layerMed (M g) i) := fun g i i0 i1 =>
    (user_physical hm hU i0 i1 (sParam_spec hfr A.freq g).1 (sParam_spec hfr A.freq g).2
      (sParam_im hfr A.freq g).1).1
  have hO : 4 ≤ a → 4 ≤ b → Oscillating (layerMed (M A.freq[f]) lr) := fun h4 h5 =>
    (user_physical hm hU hrc.1 hrc.2.1 s0 sre (sParam_im hfr A.freq A.freq[f]).1).2
      ((sParam_im hfr A.freq A.freq[f]).2 (hmm h4 h5).1) ((hmm h4 h5).2 _ (by
        have h1 := hrc.1
        have h2 : lr < (U.z.length : ℤ) + 1 := hrc.2.1
        omega))
  have hT := h3 (some true) f r s hf hr hs θ' hθe ls lr hsu hru F Fh hF hH
  have hFa := h3 (some false) f r s hf hr hs θ' hθe ls lr hsu hru F Fh hF hH
  have hN := h3 none f r s hf hr hs θ' hθe ls lr hsu hru F Fh hF hH
  simp only [reduceCtorEq, false_and, if_false, zero_add, ne_eq, not_false_eq_true, true_and, not_true_eq_false,
    sub_zero, Option.some.injEq, Bool.true_eq_false, Bool.false_eq_true] at hT hFa hN
  simp only
  rw [hT, hFa, hN]
  refine ⟨add_comm _ _, ?_⟩
  by_cases hd : ls = lr ∨ U.Uniform
  · simp only [if_pos hd]
    refine split_direct hM (hP _) hsc hrc hz ?_ hρ θ' hq (i := f) ?_ (by simpa using hf) (by simp) ha hb ?_ hF hH
    · exact hd.imp id fun hu => user_uniform hu _ hsc.1 hsc.2.1
    · intro m hm'
      simp only [List.mem_map] at hm'
      obtain ⟨g, _, rfl⟩ := hm'
      exact hP g lr hrc.1 hrc.2.1
    · intro h4 h5
      simpa using hO h4 h5
  · simp only [if_neg hd, sub_zero, add_zero]

/-- The marine survey: `True` and `False` differ by the closed form at two azimuths which differ by at most
`1e-9`, 50 m below the source and 3000 m away. -/
example : ∃ arr : Option Bool → NdArray,
    (∀ x, (dipole (ruleBack fun _ g => ∫ lam in Ioi (0 : ℝ), g lam) { marineArgs with xdirect := x }).val =
      .ok (arr x).squeeze) ∧
    ∃ (direct : ℝ → ℂ) (θ θ' : ℝ), |θ' - θ| ≤ 1e-9 ∧
      (arr (some true)).get [1, 2, 0] - (arr (some false)).get [1, 2, 0] = direct θ - direct θ' ∧
      direct = fun t => resp csqrt ([1, 10].map fun g => layerMed (marine.medium (sParam 1e-20 [1, 10] g)) 1) 1 2 4
        (3000 * Real.cos t) (3000 * Real.sin t) 950 1000 := by
  obtain ⟨arr, h1, h2⟩ := C36_xdirect (B := ruleBack fun _ g => ∫ lam in Ioi (0 : ℝ), g lam)
    (by norm_num [ruleBack, Mins.init]) (by norm_num [ruleBack, Mins.init]) (by norm_num [ruleBack, Mins.init])
    safe_exact csqrt_isSqrt (ruleBack_uses _) (A := marineArgs) marine_valid marine_describes
    (a := 2) (b := 4) (by norm_num) (by norm_num) rfl (xs := [0]) (ys := [0]) (zs := 950)
    (xr := [1000, 2000, 3000]) (yr := [0]) (zr := 1000) rfl rfl (by norm_num) (by simp) (by simp)
    (by simp [numDipoles, marineArgs]) (by simp [numDipoles, marineArgs]) (fun h => absurd h (by norm_num))
  refine ⟨arr, fun x => (h1 x).1, ?_⟩
  have h := h2 1 2 0 (by simp [marineArgs]) (by simp [numDipoles, marineArgs]) (by simp [numDipoles, marineArgs])
  have r0 : rhoOf (ruleBack fun _ g => ∫ lam in Ioi (0 : ℝ), g lam).m.minOff
      (bc [1000, 2000, 3000] 2 - bc [0] 0) (bc [0] 2 - bc [0] 0) = 3000 := by
    have : Real.sqrt (3000 ^ 2) = 3000 := Real.sqrt_sq (by norm_num)
    simp [rhoOf, bc, ruleBack, Mins.init, this]
    norm_num
  simp only [r0] at h
  obtain ⟨θ', e1, e2⟩ := h
  obtain ⟨g1, g2⟩ := e2 1 1
    ⟨by norm_num, by norm_num [UserModel.medium, marine],
      fun _ => by change (0 : ℝ) < 950; norm_num, fun _ => by change (950 : ℝ) ≤ 1000; norm_num⟩
    ⟨by norm_num, by norm_num [UserModel.medium, marine],
      fun _ => by change (0 : ℝ) < 1000; norm_num, fun _ => by change (1000 : ℝ) ≤ 1000; norm_num⟩
  refine ⟨_, _, θ', e1, ?_, rfl⟩
  rw [g1, g2]
  simp only [true_or, if_true]
  rw [add_sub_add_left_eq_sub]
  rfl

end Verif.Props
