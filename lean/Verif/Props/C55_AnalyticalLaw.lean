import Verif.Props.C55_Analytical
import Verif.Props.C53_Gallery

/-!
# C55: `analytical` with functions of the user

A function of the user for `η` or `ζ` decides the medium of the complete fullspace.
-/

namespace Verif.Props
open Verif.Py Verif.Utils Verif.Kernel Verif.Model Verif.Spec Verif.Lemmas

/-- Listed in any way without depths, the model with laws has one layer. -/
theorem law_flat {A : AnaArgs} {V : LawModel} (h : ListsLaw (anaDipole A) V) : V.U.z = [] := by
  cases h with
  | topDown lo hi depth =>
    have : lo = false ∧ V.U.z = [] ∧ hi = false := by simpa [anaDipole, allDepths] using depth.symm
    exact this.2.1
  | bottomUp lo hi depth =>
    have : hi = false ∧ V.U.z = [] ∧ lo = false := by simpa [anaDipole, allDepths] using depth.symm
    exact this.2.1

open Fullspace in
/-- The closed form is the field of the dipole, for every medium of one layer. -/
theorem one_layer_field {sqrt : ℂ → ℂ} (hq : IsSqrt sqrt) {meds : List Med} (hp : ∀ q ∈ meds, Physical q) {f : ℕ}
    (hi : f < meds.length) {M : Medium} (hn : M.n = 1) (hE : meds[f] = layerMed M 0) {b : ℕ} (hb : 1 ≤ b ∧ b ≤ 6)
    (zs : ℝ) : IsDipoleField M b zs (0 < (M.etaH 0).im ∧ 0 < (M.zetaH 0).im) (fieldE sqrt meds f b zs)
      (fieldH sqrt meds f b zs) := by
  have hP : Physical (layerMed M 0) := hE ▸ hp _ (List.getElem_mem hi)
  have hOK : M.OK := by
    refine ⟨by rw [hn]; norm_num, fun i h1 h2 => ?_, fun i h1 h2 => ?_⟩
    · rw [hn] at h2; omega
    · rw [hn] at h2
      obtain rfl : i = 0 := by omega
      exact ⟨hP.etaH.1, hP.etaV.1, hP.zetaH.1, hP.zetaV.1, hP.zetaH.2.2, hP.zetaV.2.2⟩
  have hcl : ∀ z, M.InClosed 0 z := fun z => ⟨le_refl _, by rw [hn]; norm_num, by simp, by rw [hn]; simp⟩
  have hu : M.Uniform 0 := by
    intro i h1 h2
    rw [hn] at h2
    obtain rfl : i = 0 := by omega
    exact ⟨rfl, rfl, rfl, rfl⟩
  refine ⟨fun x y z h hmag => ?_, fun a' ρ θ z ha' hρ hzs hmag F hF => ?_⟩
  · have := C36_maxwell hq hp hi hb (fun h4 => by rw [hE]; exact hmag h4) h zs z
    rw [hE] at this
    exact this
  · obtain ⟨Fh, hH⟩ := plane_family (OK.homog hOK (le_refl 0) hOK.pos) (homog_closed _ 0 zs) (unitDipole b)
    have key := C36_plane_waves hOK (le_refl 0) hOK.pos hq hp hi hE ha' hb (fun h4 h5 => by rw [hE]; exact hmag h4 h5)
      θ hzs.symm hρ hH
    rw [vecComp_field _ _ _ _ _ ha', ← key.2]
    have e : ∀ lam > 0, ∀ φ, (F lam φ).comp a' 0 z = (Fh lam φ).comp a' 0 z := fun lam hl φ =>
      plane_uniform hOK hl φ (hcl zs) (hcl z) hu (hF lam hl φ) (hH lam hl φ) ha'
    have e' : ∀ lam ∈ Set.Ioi (0 : ℝ), ringIntegral (fun φ => (F lam φ).comp a' 0 z) lam ρ θ =
        ringIntegral (fun φ => (Fh lam φ).comp a' 0 z) lam ρ θ := fun lam hl => by
      congr 1; funext φ; exact e lam hl φ
    exact ⟨key.1.congr_fun (fun lam hl => (e' lam hl).symm) measurableSet_Ioi,
      MeasureTheory.setIntegral_congr_fun measurableSet_Ioi e'⟩

/-- The closed form in polar coordinates. -/
theorem resp_polar (sqrt : ℂ → ℂ) {meds : List Fullspace.Med} {f a b : ℕ} (hi : f < meds.length) {c : ℕ} {ms mr : Bool}
    (hc : checkAb (.int (10 * a + b)) = .ok (c, ms, mr)) {ρ : ℝ} (hρ : 0 ≤ ρ) (θ zs zr : ℝ) :
    resp sqrt meds f a b (ρ * Real.cos θ) (ρ * Real.sin θ) zs zr =
      if c ≠ 36 then (Fullspace.fullspace sqrt meds ρ θ zs zr c ms mr).getD f 0 else 0 := by
  rw [resp_ok hi hc]
  split_ifs with q
  · have hq : Real.sqrt ((ρ * Real.cos θ) ^ 2 + (ρ * Real.sin θ) ^ 2) = ρ := by
      rw [show (ρ * Real.cos θ) ^ 2 + (ρ * Real.sin θ) ^ 2 = ρ ^ 2 by
        have := Real.sin_sq_add_cos_sq θ
        linear_combination ρ ^ 2 * this, Real.sqrt_sq hρ]
    rw [hq, Fullspace.fullspace, getD_eq (by simpa using hi), List.getElem_map]
    rw [mul_comm ρ, mul_comm ρ]
    simp only [fullspaceAt_polar]
    rfl
  · rfl

open Fullspace in
/-- **C55, functions of the user.**  Given a dictionary and functions which compute laws for `η` and `ζ`, `analytical`
with `solution='fs'` returns the field of the dipole in the medium of the laws, at every frequency: whatever the laws, as
long as the medium they give at the requested frequencies dissipates and does not oscillate backwards. -/
theorem C55_functions {m : Mins} (hm : 0 < m.minRes) (hof : 0 < m.minOff) {sqrt : ℂ → ℂ}
    (hq : IsSqrt sqrt) (Bes : Halfspace.Bessel) (T : Time.FBack) (junk : ℕ → ℝ) {K : Hooks} {A : AnaArgs}
    (hs : A.solution = "fs") (hg : A.signal = none) {V : LawModel} (hV : V.Valid m.minRes)
    (hA : ListsLaw (anaDipole A) V) (hK : Obeys K V) {a b : ℕ} (ha : 1 ≤ a ∧ a ≤ 6) (hb : 1 ≤ b ∧ b ≤ 6)
    (hab : toInt A.ab = .ok (10 * a + b)) {xs ys xr yr : List ℝ} {zs zr : ℝ}
    (hsrc : A.src = [xs, ys, [zs]]) (hrcv : A.rcv = [xr, yr, [zr]])
    (hls : xs.length = ys.length ∨ xs.length = 1 ∨ ys.length = 1)
    (hlr : xr.length = yr.length ∨ xr.length = 1 ∨ yr.length = 1)
    (ns : 0 < numDipoles A.src) (nr : 0 < numDipoles A.rcv)
    (hp : ∀ g ∈ A.freqtime,
      let q := V.four (sParam m.minFreq A.freqtime g) (usedVal m.minFreq A.freqtime g) 0
      Physical ⟨q.etaH, q.etaV, q.zetaH, q.zetaV⟩) :
    ∃ arr, (analyticalFull Bes T m sqrt junk K A).val = .ok (if A.squeeze then arr.squeeze else arr) ∧
      arr.shape = [A.freqtime.length, numDipoles A.rcv, numDipoles A.src] ∧
      ∃ E H : ℕ → Vec, ∀ (f : ℕ) (hf : f < A.freqtime.length),
        let M := V.medium (sParam m.minFreq A.freqtime A.freqtime[f]) (usedVal m.minFreq A.freqtime A.freqtime[f])
        IsDipoleField M b zs (0 < (M.etaH 0).im ∧ 0 < (M.zetaH 0).im) (E f) (H f) ∧
        ∀ r s, r < numDipoles A.rcv → s < numDipoles A.src →
          let ρ := rhoOf m.minOff (bc xr r - bc xs s) (bc yr r - bc ys s)
          let θ := thetaOf (bc xr r - bc xs s) (bc yr r - bc ys s)
          arr.get [f, r, s] = vecComp (E f) (H f) a (ρ * Real.cos θ) (ρ * Real.sin θ) zr := by
  have hz := law_flat hA
  have hn : ∀ s f, (V.medium s f).n = 1 := fun s f => by simp [LawModel.medium, hz]
  obtain ⟨c, ms, mr, hc⟩ : ∃ c ms mr, checkAb (.int (10 * a + b)) = .ok (c, ms, mr) :=
    ⟨_, _, _, checkAb_digits ha hb⟩
  have hc' : checkAb A.ab = .ok (c, ms, mr) := by rw [← hc, checkAb, checkAb, hab]; rfl
  have h1 := law_checkModel hV hA
  have h2 := C30_frequency m A.freqtime (lawOut m V).res (lawOut m V).aniso (lawOut m V).epermH
    (lawOut m V).epermV (lawOut m V).mpermH (lawOut m V).mpermV A.verb
  obtain ⟨fo', h3, -, hl, hrows⟩ := law_rows hm hV hK h2
  obtain ⟨src, rcv, d1, d2, n1, n2, z1, z2, hoa⟩ := coords_at m junk hsrc hrcv hls hlr
  have ht : (anaTime T m A).val = .ok A.freqtime := by rw [anaTime]; simp only [hg]; rfl
  have hmeds : (rowsOf (lawOut m V).depth fo').map (medAt 0) = A.freqtime.map fun g =>
      layerMed (V.medium (sParam m.minFreq A.freqtime g) (usedVal m.minFreq A.freqtime g)) 0 := by
    rw [hrows, List.map_map, hl]
    exact map_range_getD A.freqtime fun g =>
      layerMed (V.medium (sParam m.minFreq A.freqtime g) (usedVal m.minFreq A.freqtime g)) 0
  have hval : (analyticalArr Bes T m sqrt junk K A).val = anaField Bes sqrt m junk A A.freqtime (lawOut m V) fo'
      (c, ms, mr) src rcv := by
    rw [ana_val, ht, bind_okE]
    simp only [anaDipole] at h1
    rw [h1, bind_okE, h2, bind_okE, h3, bind_okE, hc', bind_okE, d1, bind_okE, d2, bind_okE]
  rw [fs_field Bes sqrt m junk A.freqtime _ src rcv hs hg, if_neg (by
    rw [n1, n2]; exact (Nat.mul_pos nr ns).ne'), hmeds, hl] at hval
  have hP : ∀ q ∈ A.freqtime.map fun g =>
      layerMed (V.medium (sParam m.minFreq A.freqtime g) (usedVal m.minFreq A.freqtime g)) 0, Physical q := by
    intro q hq
    simp only [List.mem_map] at hq
    obtain ⟨g, hgm, rfl⟩ := hq
    have := hp g hgm
    simpa [layerMed, LawModel.medium, UserModel.layer, hz] using this
  refine ⟨_, by rw [analyticalFull_val, hval]; rfl, by rw [n1, n2]; rfl, fun f => fieldE sqrt (A.freqtime.map fun g =>
      layerMed (V.medium (sParam m.minFreq A.freqtime g) (usedVal m.minFreq A.freqtime g)) 0) f b zs,
    fun f => fieldH sqrt (A.freqtime.map fun g =>
      layerMed (V.medium (sParam m.minFreq A.freqtime g) (usedVal m.minFreq A.freqtime g)) 0) f b zs, fun f hf => ?_⟩
  have hi : f < (A.freqtime.map fun g =>
      layerMed (V.medium (sParam m.minFreq A.freqtime g) (usedVal m.minFreq A.freqtime g)) 0).length := by simpa using hf
  intro M
  refine ⟨one_layer_field hq hP hi (hn _ _) (by simp [M]) hb zs, fun r s hr hs => ?_⟩
  intro ρ θ
  obtain ⟨o1, o2⟩ := hoa r s (by omega) (by omega)
  have hρ : 0 ≤ ρ := le_trans hof.le (le_max_right _ _)
  rw [vecComp_field _ _ _ _ _ ha, resp_polar sqrt hi hc hρ, reshapeF_get _ _ _ _ (by omega) (by omega)]
  rw [show r + rcv.1.length * s = s * rcv.1.length + r by ring]
  simp only [o1, o2, z1, z2]
  rfl

/-! ## The Cole-Cole law never oscillates backwards -/

theorem relaxation_im {f τ c : ℝ} (hf : 0 < f) (hτ : 0 < τ) (hc : 0 ≤ c) (hc1 : c ≤ 1) : (relaxation f τ c).im ≤ 0 := by
  unfold relaxation
  have hw : 0 < 2 * Real.pi * f * τ := by positivity
  generalize 2 * Real.pi * f * τ = w at hw
  have hx : 0 ≤ ((((w : ℝ) : ℂ) * Complex.I) ^ (c : ℂ)).im := by
    rw [Complex.cpow_ofReal_im, Complex.arg_real_mul _ hw, Complex.arg_I]
    refine mul_nonneg (Real.rpow_nonneg (norm_nonneg _) _) (Real.sin_nonneg_of_nonneg_of_le_pi ?_ ?_)
    · have := Real.pi_pos; nlinarith
    · have := Real.pi_pos; nlinarith
  generalize (((w : ℝ) : ℂ) * Complex.I) ^ (c : ℂ) = x at hx
  rw [one_div, Complex.inv_im, Complex.add_im, Complex.one_im, zero_add]
  exact div_nonpos_of_nonpos_of_nonneg (by linarith) (Complex.normSq_nonneg _)

/-- **C55, Cole-Cole.**  For `0 < σ₀ ≤ σ∞`, `τ > 0`, `0 ≤ c ≤ 1` the law of Cole and Cole satisfies what `C55_functions`
asks for, at all frequencies and with every permittivity. -/
theorem C55_cole_cole {V : LawModel} {m : Mins} (hm : 0 < m.minRes) (hV : V.Valid m.minRes)
    (he : V.eta = some coleColeLaw) (hz : V.zeta = none)
    (h : 0 < LayerPar.get (V.layerPar 0) "cond_0" ∧ LayerPar.get (V.layerPar 0) "cond_0" ≤ LayerPar.get (V.layerPar 0) "cond_8" ∧
      0 < LayerPar.get (V.layerPar 0) "tau" ∧ 0 ≤ LayerPar.get (V.layerPar 0) "c" ∧ LayerPar.get (V.layerPar 0) "c" ≤ 1)
    {s : ℂ} (h0 : s ≠ 0) (hre : 0 ≤ s.re) (him : 0 ≤ s.im) {f : ℝ} (hf : 0 < f) :
    Physical ⟨(V.four s f 0).etaH, (V.four s f 0).etaV, (V.four s f 0).zetaH, (V.four s f 0).zetaV⟩ := by
  obtain ⟨q1, q2, q3, q4, q5⟩ := h
  obtain ⟨-, -, z1, z2, z3, z4⟩ := plain_zeta hm hV h0 hre (i := 0) (by omega)
  have ph := (user_physical hm hV.user (k := 0) (le_refl _) (by positivity) h0 hre him).1
  have r : ∀ (g : ℕ → ℂ), V.U.layer g 0 = g 0 := fun g => by
    unfold UserModel.layer
    rw [if_pos ⟨by omega, by omega⟩]; simp
  have i1 : 0 ≤ (V.plain s 0).etaH.im := by
    have := ph.etaH.2; simp only [layerMed, UserModel.medium, r] at this; exact this
  have i2 : 0 ≤ (V.plain s 0).etaV.im := by
    have := ph.etaV.2; simp only [layerMed, UserModel.medium, r] at this; exact this
  have i3 : 0 ≤ (V.plain s 0).zetaH.im := by
    have := ph.zetaH.2.1; simp only [layerMed, UserModel.medium, r] at this; exact this
  have i4 : 0 ≤ (V.plain s 0).zetaV.im := by
    have := ph.zetaV.2.1; simp only [layerMed, UserModel.medium, r] at this; exact this
  obtain ⟨r1, r2⟩ := relaxation_re hf q3 q4 q5
  have r3 := relaxation_im hf q3 q4 q5
  unfold LawModel.four
  rw [he, hz]
  simp only [Four.setEta, Four.setZeta, coleColeLaw]
  generalize relaxation f _ _ = w at r1 r2 r3
  have hσ : 0 < ((LayerPar.get (V.layerPar 0) "cond_0" : ℂ) * w +
      (LayerPar.get (V.layerPar 0) "cond_8" : ℂ) * (1 - w)).re := by
    rw [Complex.add_re, Complex.re_ofReal_mul, Complex.re_ofReal_mul]
    have := mul_pos q1 r1
    have := mul_nonneg (le_trans q1.le q2) r2
    linarith
  have hσ' : 0 ≤ ((LayerPar.get (V.layerPar 0) "cond_0" : ℂ) * w +
      (LayerPar.get (V.layerPar 0) "cond_8" : ℂ) * (1 - w)).im := by
    rw [Complex.add_im, Complex.im_ofReal_mul, Complex.im_ofReal_mul, Complex.sub_im, Complex.one_im]
    nlinarith
  have hl := aniso_ne hm hV (i := 0) (by omega)
  generalize (LayerPar.get (V.layerPar 0) "cond_0" : ℂ) * w + (LayerPar.get (V.layerPar 0) "cond_8" : ℂ) * (1 - w) = σ
    at hσ hσ'
  refine ⟨⟨?_, ?_⟩, ⟨?_, ?_⟩, ⟨z1, i3, z3⟩, ⟨z2, i4, z4⟩⟩
  · simpa using hσ
  · simp only [Complex.add_im, Complex.mul_im, Complex.ofReal_re, Complex.I_im, mul_one, Complex.ofReal_im, Complex.I_re,
      mul_zero, add_zero]
    exact add_nonneg hσ' i1
  · have := re_div_sq hσ hl
    simpa using this
  · simp only [Complex.add_im, Complex.mul_im, Complex.ofReal_re, Complex.I_im, mul_one, Complex.ofReal_im, Complex.I_re,
      mul_zero, add_zero]
    refine add_nonneg ?_ i2
    have e : (σ / ((V.layerPar 0).aniso : ℂ) ^ 2) = σ / (((V.layerPar 0).aniso ^ 2 : ℝ) : ℂ) := by push_cast; rfl
    rw [e, Complex.div_ofReal_im]
    positivity

/-! ## Example: polarisable ground -/

/-- One polarisable material. -/
noncomputable def landIP : LawModel where
  U := land none
  extra := [("tau", some [0.5]), ("c", some [0.25]), ("cond_0", some [0.08]), ("cond_8", some [0.1])]
  eta := some coleColeLaw
  zeta := none

theorem landIP_valid : landIP.Valid 1e-20 where
  user := land_valid (Or.inl rfl)
  lens := by
    intro p hp l hl
    simp only [landIP, List.mem_cons, List.not_mem_nil, or_false] at hp
    rcases hp with rfl | rfl | rfl | rfl <;> (obtain rfl := Option.some.inj hl; rfl)

theorem landIP_get : LayerPar.get (landIP.layerPar 0) "tau" = 0.5 ∧ LayerPar.get (landIP.layerPar 0) "c" = 0.25 ∧
    LayerPar.get (landIP.layerPar 0) "cond_0" = 0.08 ∧ LayerPar.get (landIP.layerPar 0) "cond_8" = 0.1 :=
  ⟨rfl, rfl, rfl, rfl⟩

noncomputable def landIPArgs : AnaArgs := { landArgs none with res := .dict [10] landIP.extra, solution := "fs" }

theorem landIP_obeys : Obeys ⟨some Gallery.coleCole, none⟩ landIP where
  eta := ⟨_, C53_cole_cole, by
    intro k hk
    simp only [List.mem_cons, List.not_mem_nil, or_false] at hk
    rcases hk with rfl | rfl | rfl | rfl <;> exact ⟨_, rfl⟩⟩
  zeta := ⟨[], trivial, by simp⟩

/-- Two receivers, two frequencies, vertical dipoles in polarisable ground: the field of the dipole in the medium of Cole
and Cole. -/
example (Bes : Halfspace.Bessel) (T : Time.FBack) : ∃ arr,
    (analyticalFull Bes T Mins.init csqrt (fun _ => 0) ⟨some Gallery.coleCole, none⟩ landIPArgs).val = .ok arr ∧
    ∃ E H : ℕ → Vec, IsDipoleField (landIP.medium (sParam Mins.init.minFreq [1, 10] 10) (usedVal Mins.init.minFreq [1, 10] 10))
      3 100 True (E 1) (H 1) ∧ ∀ r < 2, arr.get [1, r, 0] = vecComp (E 1) (H 1) 3
        (rhoOf Mins.init.minOff (bc [1000, 2000] r - bc [0] 0) (bc [0] r - bc [0] 0) *
          Real.cos (thetaOf (bc [1000, 2000] r - bc [0] 0) (bc [0] r - bc [0] 0)))
        (rhoOf Mins.init.minOff (bc [1000, 2000] r - bc [0] 0) (bc [0] r - bc [0] 0) *
          Real.sin (thetaOf (bc [1000, 2000] r - bc [0] 0) (bc [0] r - bc [0] 0))) 100 := by
  obtain ⟨h1, h2, h3⟩ := land_mins
  obtain ⟨g1, g2, g3, g4⟩ := landIP_get
  obtain ⟨arr, e1, -, E, H, e3⟩ := C55_functions h1 h3 csqrt_isSqrt Bes T (fun _ => 0) (A := landIPArgs)
    (V := landIP) rfl rfl landIP_valid
    (.topDown false false (by simp [anaDipole, landIPArgs, landArgs, landIP, land, allDepths]) rfl rfl rfl rfl rfl rfl)
    landIP_obeys (a := 3) (b := 3) (by omega) (by omega) rfl rfl rfl (by simp) (by simp)
    (by simp [numDipoles, landIPArgs, landArgs]) (by simp [numDipoles, landIPArgs, landArgs])
    (by
      intro g hg
      have hg' : 0 < usedVal Mins.init.minFreq landIPArgs.freqtime g := by
        unfold usedVal; split_ifs <;> exact lt_max_of_lt_right h2
      exact C55_cole_cole (m := Mins.init) h1 landIP_valid rfl rfl
        (by rw [g1, g2, g3, g4]; norm_num)
        (sParam_spec h2 _ g).1 (sParam_spec h2 _ g).2 (sParam_im h2 _ g).1 hg')
  obtain ⟨i1, i2⟩ := e3 1 (by simp [landIPArgs, landArgs])
  exact ⟨arr, e1, E, H, ⟨fun x y z h _ => i1.maxwell x y z h (fun q => absurd q (by norm_num)),
    fun a ρ θ z ha hρ hz _ => i1.waves a ρ θ z ha hρ hz (fun _ q => absurd q (by norm_num))⟩, fun r hr => i2 r 0 (by simpa [numDipoles, landIPArgs, landArgs] using hr)
    (by simp [numDipoles, landIPArgs, landArgs])⟩

end Verif.Props
