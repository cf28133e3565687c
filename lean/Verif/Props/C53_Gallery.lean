import Verif.Props.C53_Time
import Verif.Props.C45_Decay
import Mathlib.Analysis.SpecialFunctions.Pow.Real

/-!
# C53: the functions of the gallery are passive laws
-/

namespace Verif.Props
open Verif.Py Verif.Py.W Verif.Utils Verif.Spec Verif.Model Verif.Kernel Verif.Lemmas Verif.Transform Verif.Time

/-! ## Specification -/

/-- A further parameter of the layer. -/
def LayerPar.get (p : LayerPar) (k : String) : ℝ := (p.extra k).getD 0

/-- Relaxation: `1 / (1 + (iωτ)^c)`. -/
noncomputable def relaxation (f τ c : ℝ) : ℂ := 1 / (1 + (((2 * Real.pi * f * τ : ℝ) : ℂ) * Complex.I) ^ (c : ℂ))

/-- Cole and Cole: conductivity from `σ₀` at zero frequency to `σ∞`, with the given permittivity. -/
noncomputable def coleColeLaw : Law := fun p f q =>
  let σ := (LayerPar.get p "cond_0" : ℂ) * relaxation f (LayerPar.get p "tau") (LayerPar.get p "c") +
    (LayerPar.get p "cond_8" : ℂ) * (1 - relaxation f (LayerPar.get p "tau") (LayerPar.get p "c"))
  (σ + (q.etaH.im : ℂ) * Complex.I, σ / (p.aniso : ℂ) ^ 2 + (q.etaV.im : ℂ) * Complex.I)

/-- Pelton et al.: resistivity from `ρ₀` at zero frequency to `ρ₀ (1 - m)`, with the given permittivity. -/
noncomputable def peltonLaw : Law := fun p f q =>
  let ρ := (LayerPar.get p "rho_0" : ℂ) * ((1 - (LayerPar.get p "m" : ℂ)) +
    (LayerPar.get p "m" : ℂ) * relaxation f (LayerPar.get p "tau") (LayerPar.get p "c"))
  (1 / ρ + (q.etaH.im : ℂ) * Complex.I, 1 / (ρ * (p.aniso : ℂ) ^ 2) + (q.etaV.im : ℂ) * Complex.I)

/-! ## The functions compute the laws -/

theorem param_ok {mo : ModelOut} {k : String} {l : List ℝ} (h : (mo.extra.getD []).lookup k = some l) :
    Gallery.param mo k = .ok l ∧ ∀ i, LayerPar.get (parOf mo i) k = l.getD i 0 := by
  refine ⟨by unfold Gallery.param; rw [h], fun i => ?_⟩
  simp only [LayerPar.get, parOf, h, Option.map_some, Option.getD_some]

theorem table_congr {mo : ModelOut} {fo : FreqOut} {v w : ℕ → ℕ → ℂ} (h : ∀ g i, v g i = w g i) :
    Gallery.table mo fo v = Gallery.table mo fo w := by
  have : v = w := by funext g i; exact h g i
  rw [this]

theorem relax_eq (fo : FreqOut) (tau c : List ℝ) (g i : ℕ) :
    1 / (1 + Gallery.iotc fo tau c g i) = relaxation (fo.freq.getD g 0) (tau.getD i 0) (c.getD i 0) := by
  unfold Gallery.iotc relaxation
  congr 3
  push_cast
  ring

/-- **C53, Cole-Cole.**  `cole_cole` of the gallery computes the law of Cole and Cole. -/
theorem C53_cole_cole : Follows ["tau", "c", "cond_8", "cond_0"] Gallery.coleCole coleColeLaw := by
  intro mo fo h
  obtain ⟨l1, h1⟩ := h "tau" (by simp)
  obtain ⟨l2, h2⟩ := h "c" (by simp)
  obtain ⟨l3, h3⟩ := h "cond_8" (by simp)
  obtain ⟨l4, h4⟩ := h "cond_0" (by simp)
  obtain ⟨p1, v1⟩ := param_ok h1
  obtain ⟨p2, v2⟩ := param_ok h2
  obtain ⟨p3, v3⟩ := param_ok h3
  obtain ⟨p4, v4⟩ := param_ok h4
  have va : ∀ i, (parOf mo i).aniso = mo.aniso.getD i 0 := fun _ => rfl
  unfold Gallery.coleCole
  simp only [p1, p2, p3, p4, bind, Except.bind]
  congr 2
  · refine table_congr fun g i => ?_
    simp only [coleColeLaw, v1, v2, v3, v4, ← relax_eq, fourOf]
    ring
  · refine table_congr fun g i => ?_
    simp only [coleColeLaw, v1, v2, v3, v4, ← relax_eq, fourOf, va]
    ring

/-- **C53, Pelton.**  `pelton_et_al` of the gallery computes the law of Pelton et al. -/
theorem C53_pelton : Follows ["tau", "c", "rho_0", "m"] Gallery.pelton peltonLaw := by
  intro mo fo h
  obtain ⟨l1, h1⟩ := h "tau" (by simp)
  obtain ⟨l2, h2⟩ := h "c" (by simp)
  obtain ⟨l3, h3⟩ := h "rho_0" (by simp)
  obtain ⟨l4, h4⟩ := h "m" (by simp)
  obtain ⟨p1, v1⟩ := param_ok h1
  obtain ⟨p2, v2⟩ := param_ok h2
  obtain ⟨p3, v3⟩ := param_ok h3
  obtain ⟨p4, v4⟩ := param_ok h4
  have va : ∀ i, (parOf mo i).aniso = mo.aniso.getD i 0 := fun _ => rfl
  unfold Gallery.pelton
  simp only [p1, p2, p3, p4, bind, Except.bind]
  congr 2
  · refine table_congr fun g i => ?_
    simp only [peltonLaw, v1, v2, v3, v4, ← relax_eq, fourOf]
    congr 1
    · congr 1; ring
    · ring
  · refine table_congr fun g i => ?_
    simp only [peltonLaw, v1, v2, v3, v4, ← relax_eq, fourOf, va]
    congr 1
    · congr 1; ring
    · ring

/-- **C53, missing parameters.**  Without the parameter `tau` in the dictionary `cole_cole` raises `KeyError`, and so does
`dipole`. -/
theorem C53_key_error {B : Back} {A : DipoleArgs} {V : LawModel} (hV : V.Valid B.m.minRes) (hA : ListsLaw A V)
    (hk : V.extra.lookup "tau" = none) (z : Option Hook) :
    (dipoleHook B ⟨some Gallery.coleCole, z⟩ none A).val = .error .keyError := by
  have h1 := law_checkModel hV hA
  have h2 := C30_frequency B.m A.freq (lawOut B.m V).res (lawOut B.m V).aniso (lawOut B.m V).epermH
    (lawOut B.m V).epermV (lawOut B.m V).mpermH (lawOut B.m V).mpermV A.verb
  have h3 : ∀ fo, (⟨some Gallery.coleCole, z⟩ : Hooks).run (lawOut B.m V) fo = .error .keyError := by
    intro fo
    have q : (lawOut B.m V).extra.isSome = true := rfl
    have hp : Gallery.param (lawOut B.m V) "tau" = .error .keyError := by
      unfold Gallery.param
      simp only [lawOut, Option.getD_some]
      rw [lookup_map (inpVal (V.U.z.length + 1) none), hk]
      rfl
    unfold Hooks.run Hooks.runEta Gallery.coleCole
    rw [if_pos q]
    simp only [hp, bind, Except.bind]
  unfold dipoleHook dipoleHookWith
  rw [bind_val, bind_ok h1, bind_ok h2, h3]
  rfl

/-! ## The laws are passive -/

theorem relaxation_re {f τ c : ℝ} (hf : 0 < f) (hτ : 0 < τ) (hc : 0 ≤ c) (hc1 : c ≤ 1) :
    0 < (relaxation f τ c).re ∧ 0 ≤ (1 - relaxation f τ c).re := by
  unfold relaxation
  have hw : 0 < 2 * Real.pi * f * τ := by positivity
  generalize 2 * Real.pi * f * τ = w at hw
  have hx : 0 ≤ ((((w : ℝ) : ℂ) * Complex.I) ^ (c : ℂ)).re := by
    rw [Complex.cpow_ofReal_re, Complex.arg_real_mul _ hw, Complex.arg_I]
    refine mul_nonneg (Real.rpow_nonneg (norm_nonneg _) _) (Real.cos_nonneg_of_mem_Icc ⟨?_, ?_⟩)
    · have := Real.pi_pos; nlinarith
    · have := Real.pi_pos; nlinarith
  generalize (((w : ℝ) : ℂ) * Complex.I) ^ (c : ℂ) = x at hx
  have h1 : (1 + x).re = 1 + x.re := by simp
  have hn : 0 < Complex.normSq (1 + x) := Complex.normSq_pos.2 fun q => by
    have := congrArg Complex.re q
    simp at this; linarith
  have e : (1 / (1 + x)).re = (1 + x.re) / Complex.normSq (1 + x) := by
    rw [one_div, Complex.inv_re, h1]
  have hs : Complex.normSq (1 + x) = (1 + x.re) ^ 2 + x.im ^ 2 := by
    rw [Complex.normSq_apply]; simp; ring
  constructor
  · rw [e]; positivity
  · rw [Complex.sub_re, Complex.one_re, e, sub_nonneg, div_le_one hn, hs]
    nlinarith [sq_nonneg x.im]

/-- Passive material at frequency `f` with Laplace parameter `s`. -/
theorem re_div_sq {σ : ℂ} (h : 0 < σ.re) {l : ℝ} (hl : l ≠ 0) : 0 < (σ / (l : ℂ) ^ 2).re := by
  have : (σ / (l : ℂ) ^ 2) = σ / ((l ^ 2 : ℝ) : ℂ) := by push_cast; rfl
  rw [this, Complex.div_ofReal_re]
  positivity

theorem plain_zeta {V : LawModel} {m : Mins} (hm : 0 < m.minRes) (hV : V.Valid m.minRes) {s : ℂ} (h0 : s ≠ 0)
    (hre : 0 ≤ s.re) {i : ℕ} (hi : i < V.U.z.length + 1) : Medium.LayerPassive (V.plain s i).etaH (V.plain s i).etaV
      (V.plain s i).zetaH (V.plain s i).zetaV := by
  have h := (user_ok (m := m) hm hV.user h0 hre).pas i (by omega) (by simp only [UserModel.medium]; omega)
  have r : ∀ (f : ℕ → ℂ), V.U.layer f (i : ℤ) = f i := fun f => by
    unfold UserModel.layer
    rw [if_pos ⟨by omega, by omega⟩]; simp
  simp only [UserModel.medium, r] at h
  exact h

theorem aniso_ne {V : LawModel} {m : Mins} (hm : 0 < m.minRes) (hV : V.Valid m.minRes) {i : ℕ}
    (hi : i < V.U.z.length + 1) : (V.layerPar i).aniso ≠ 0 := by
  have h := hV.user.rhoV i hi
  intro q
  have q' : UserModel.val V.U.aniso 1 i = 0 := q
  unfold UserModel.rhoV at h
  rw [q'] at h
  norm_num at h
  linarith

/-- **C53, passivity of Cole-Cole.**  For `σ₀ > 0`, `σ∞ ≥ 0`, `τ > 0` and `0 ≤ c ≤ 1` in every layer, the medium of
the law of Cole and Cole is passive at every positive frequency, whatever the permittivities and permeabilities are. -/
theorem C53_cole_passive {V : LawModel} {m : Mins} (hm : 0 < m.minRes) (hV : V.Valid m.minRes)
    (he : V.eta = some coleColeLaw) (hz : V.zeta = none)
    (hp : ∀ i < V.U.z.length + 1, 0 < LayerPar.get (V.layerPar i) "cond_0" ∧ 0 ≤ LayerPar.get (V.layerPar i) "cond_8" ∧
      0 < LayerPar.get (V.layerPar i) "tau" ∧ 0 ≤ LayerPar.get (V.layerPar i) "c" ∧
      LayerPar.get (V.layerPar i) "c" ≤ 1)
    {s : ℂ} (h0 : s ≠ 0) (hre : 0 ≤ s.re) {f : ℝ} (hf : 0 < f) : V.Passive s f := by
  intro i hi
  obtain ⟨q1, q2, q3, q4, q5⟩ := hp i hi
  obtain ⟨-, -, z1, z2, z3, z4⟩ := plain_zeta hm hV h0 hre hi
  obtain ⟨r1, r2⟩ := relaxation_re hf q3 q4 q5
  unfold LawModel.four
  rw [he, hz]
  simp only [Four.setEta, Four.setZeta, coleColeLaw]
  generalize relaxation f _ _ = w at r1 r2
  have hσ : 0 < ((LayerPar.get (V.layerPar i) "cond_0" : ℂ) * w +
      (LayerPar.get (V.layerPar i) "cond_8" : ℂ) * (1 - w)).re := by
    rw [Complex.add_re, Complex.re_ofReal_mul, Complex.re_ofReal_mul]
    have := mul_pos q1 r1
    have := mul_nonneg q2 r2
    linarith
  refine ⟨?_, ?_, z1, z2, z3, z4⟩
  · rw [Complex.add_re, Complex.re_ofReal_mul, Complex.I_re, mul_zero, add_zero]; exact hσ
  · rw [Complex.add_re, Complex.re_ofReal_mul, Complex.I_re, mul_zero, add_zero]
    exact re_div_sq hσ (aniso_ne hm hV hi)

theorem re_inv_pos {z : ℂ} (h : 0 < z.re) : 0 < (1 / z).re := by
  rw [one_div, Complex.inv_re]
  exact div_pos h (Complex.normSq_pos.2 fun q => by rw [q] at h; simp at h)

/-- **C53, passivity of Pelton.**  The same for `ρ₀ > 0`, `0 ≤ m ≤ 1`, `τ > 0` and `0 ≤ c ≤ 1`. -/
theorem C53_pelton_passive {V : LawModel} {m : Mins} (hm : 0 < m.minRes) (hV : V.Valid m.minRes)
    (he : V.eta = some peltonLaw) (hz : V.zeta = none)
    (hp : ∀ i < V.U.z.length + 1, 0 < LayerPar.get (V.layerPar i) "rho_0" ∧ 0 ≤ LayerPar.get (V.layerPar i) "m" ∧
      LayerPar.get (V.layerPar i) "m" ≤ 1 ∧
      0 < LayerPar.get (V.layerPar i) "tau" ∧ 0 ≤ LayerPar.get (V.layerPar i) "c" ∧
      LayerPar.get (V.layerPar i) "c" ≤ 1)
    {s : ℂ} (h0 : s ≠ 0) (hre : 0 ≤ s.re) {f : ℝ} (hf : 0 < f) : V.Passive s f := by
  intro i hi
  obtain ⟨q1, q2, q6, q3, q4, q5⟩ := hp i hi
  obtain ⟨-, -, z1, z2, z3, z4⟩ := plain_zeta hm hV h0 hre hi
  obtain ⟨r1, r2⟩ := relaxation_re hf q3 q4 q5
  unfold LawModel.four
  rw [he, hz]
  simp only [Four.setEta, Four.setZeta, peltonLaw]
  generalize relaxation f _ _ = w at r1 r2
  have hρ : 0 < ((LayerPar.get (V.layerPar i) "rho_0" : ℂ) * ((1 - (LayerPar.get (V.layerPar i) "m" : ℂ)) +
      (LayerPar.get (V.layerPar i) "m" : ℂ) * w)).re := by
    rw [Complex.re_ofReal_mul, Complex.add_re, Complex.re_ofReal_mul, Complex.sub_re, Complex.one_re, Complex.ofReal_re]
    refine mul_pos q1 ?_
    rcases q6.eq_or_lt with h | h
    · rw [h]; linarith
    · have := mul_nonneg q2 r1.le
      linarith
  refine ⟨?_, ?_, z1, z2, z3, z4⟩
  · rw [Complex.add_re, Complex.re_ofReal_mul, Complex.I_re, mul_zero, add_zero]; exact re_inv_pos hρ
  · rw [Complex.add_re, Complex.re_ofReal_mul, Complex.I_re, mul_zero, add_zero, ← div_div]
    exact re_div_sq (re_inv_pos hρ) (aniso_ne hm hV hi)

/-! ## Identical layers -/

/-- **C53, identical layers.**  A dictionary is never taken for a full-space: without functions, with source and receiver
in different layers and `xdirect=None`, the dictionary gives what the array gives with `xdirect=False`, the whole field,
also if all layers are identical. -/
theorem C53_layers {B : Back} (hm : 0 < B.m.minRes) (hfr : 0 < B.m.minFreq) (hof : 0 < B.m.minOff)
    (ho : Safe B.o) {T : ℝ → (ℝ → ℂ) → ℂ} (hT : IsRule T) (hB : Uses B (besselRule T)) {A A' : DipoleArgs}
    {U : UserModel} {extra : List (String × Option (List ℝ))}
    (hV : LawModel.Valid ⟨U, extra, none, none⟩ B.m.minRes) (hA : ListsLaw A ⟨U, extra, none, none⟩)
    (hA' : Describes A' U)
    (same : A'.src = A.src ∧ A'.rcv = A.rcv ∧ A'.freq = A.freq ∧ A'.ab = A.ab)
    (hx : A.xdirect = none) (hx' : A'.xdirect = some false)
    {a b : ℕ} (ha : 1 ≤ a ∧ a ≤ 6)
    (hb : 1 ≤ b ∧ b ≤ 6) (hab : toInt A.ab = .ok (10 * a + b)) {xs ys xr yr : List ℝ} {zs zr : ℝ}
    (hsrc : A.src = [xs, ys, [zs]]) (hrcv : A.rcv = [xr, yr, [zr]])
    (hls : xs.length = ys.length ∨ xs.length = 1 ∨ ys.length = 1)
    (hlr : xr.length = yr.length ∨ xr.length = 1 ∨ yr.length = 1)
    (ns : 0 < numDipoles A.src) (nr : 0 < numDipoles A.rcv) {ls lr : ℤ} (hs : ∀ s, (U.medium s).InUpper ls zs)
    (hr : ∀ s, (U.medium s).InUpper lr zr) (hne : ls ≠ lr) :
    ∃ arr arr', (dipoleHook B ⟨none, none⟩ none A).val = .ok (if A.squeeze then arr.squeeze else arr) ∧
      (Model.dipole B A').val = .ok (if A'.squeeze then arr'.squeeze else arr') ∧
      arr.shape = [A.freq.length, numDipoles A.rcv, numDipoles A.src] ∧ arr'.shape = arr.shape ∧
      ∀ (f r s : ℕ), f < A.freq.length → r < numDipoles A.rcv → s < numDipoles A.src →
        arr.get [f, r, s] = arr'.get [f, r, s] := by
  obtain ⟨s1, s2, s3, s4⟩ := same
  obtain ⟨abc, ms, mr, hc⟩ : ∃ abc ms mr, checkAb (.int (10 * a + b)) = .ok (abc, ms, mr) :=
    ⟨_, _, _, checkAb_digits ha hb⟩
  have hsp : ∀ g, sParam B.m.minFreq A.freq g ≠ 0 ∧ 0 ≤ (sParam B.m.minFreq A.freq g).re := sParam_spec hfr A.freq
  obtain ⟨arr, h1, h2, h3⟩ := dipoleHook_at (V := ⟨U, extra, none, none⟩) hm hof ho hT hB hV hA
    (K := ⟨none, none⟩) ⟨⟨[], trivial, by simp⟩, ⟨[], trivial, by simp⟩⟩
    (fun g _ i hi => plain_zeta (V := ⟨U, extra, none, none⟩) hm hV (hsp g).1 (hsp g).2 hi)
    ha hb hab hsrc hrcv hls hlr hc ns nr
  obtain ⟨arr', g1, g2, g3⟩ := dipole_at hm hfr hof ho hT hB hV.user hA' ha hb (s4 ▸ hab) (s1 ▸ hsrc) (s2 ▸ hrcv) hls hlr hc
    (s1 ▸ ns) (s2 ▸ nr)
  rw [s1, s2, s3] at g2
  refine ⟨arr, arr', h1, g1, h2, by rw [g2, h2], fun f r s hf hr' hs' => ?_⟩
  obtain ⟨θ', -, hθe⟩ := angle_near (thetaOf (bc xr r - bc xs s) (bc yr r - bc ys s)) abc ms mr
  have hM := user_ok (m := B.m) hm hV.user (hsp A.freq[f]).1 (hsp A.freq[f]).2
  have hcl := upper_closed (hs (sParam B.m.minFreq A.freq A.freq[f]))
  obtain ⟨F, hF⟩ := plane_family hM hcl (unitDipole b)
  obtain ⟨Fh, hH⟩ := plane_family (OK.homog hM hcl.1 hcl.2.1) (homog_closed _ _ zs) (unitDipole b)
  have e1 := h3 f r s hf hr' hs' θ' hθe ls lr (hs _) (hr _) F Fh hF hH
  simp only [s3, s1, s2] at g3
  have e2 := g3 f r s hf hr' hs' θ' hθe ls lr (hs _) (hr _) F Fh hF hH
  rw [e1, e2, hx, hx']
  simp only [hne, and_false, if_false, ne_eq, not_true_eq_false, false_and, reduceCtorEq,
    Option.some.injEq, Bool.false_eq_true]

/-! ## Example: the marine model with induced polarisation -/

/-- Air, sea and a polarisable sediment. -/
noncomputable def marineIP : LawModel where
  U := marine
  extra := [("tau", some [1, 1, 0.5]), ("c", some [0.5, 0.5, 0.25]), ("cond_0", some [1e-8, 3, 0.8]),
    ("cond_8", some [1e-8, 3, 1])]
  eta := some coleColeLaw
  zeta := none

theorem marineIP_valid : marineIP.Valid 1e-20 where
  user := marine_valid
  lens := by
    intro p hp l hl
    simp only [marineIP, List.mem_cons, List.not_mem_nil, or_false] at hp
    rcases hp with rfl | rfl | rfl | rfl <;> (obtain rfl := Option.some.inj hl; rfl)

noncomputable def marineIPArgs : DipoleArgs := { marineArgs with res := .dict marine.res marineIP.extra }

theorem marineIP_lists : ListsLaw marineIPArgs marineIP :=
  .topDown false false (by simp [marineIPArgs, marineArgs, marine, marineIP, allDepths]) rfl rfl rfl rfl rfl rfl

theorem marineIP_obeys : Obeys ⟨some Gallery.coleCole, none⟩ marineIP where
  eta := ⟨_, C53_cole_cole, by
    intro k hk
    simp only [List.mem_cons, List.not_mem_nil, or_false] at hk
    rcases hk with rfl | rfl | rfl | rfl <;> exact ⟨_, rfl⟩⟩
  zeta := ⟨[], trivial, by simp⟩

theorem marineIP_get (i : ℕ) : LayerPar.get (marineIP.layerPar i) "tau" = [1, 1, 0.5].getD i 0 ∧
    LayerPar.get (marineIP.layerPar i) "c" = [0.5, 0.5, 0.25].getD i 0 ∧
    LayerPar.get (marineIP.layerPar i) "cond_0" = [1e-8, 3, 0.8].getD i 0 ∧
    LayerPar.get (marineIP.layerPar i) "cond_8" = [1e-8, 3, 1].getD i 0 := ⟨rfl, rfl, rfl, rfl⟩

theorem marineIP_passive {s : ℂ} (h0 : s ≠ 0) (hre : 0 ≤ s.re) {f : ℝ} (hf : 0 < f) : marineIP.Passive s f := by
  refine C53_cole_passive (m := Mins.init) (by norm_num [Mins.init]) marineIP_valid rfl rfl ?_ h0 hre hf
  intro i hi
  have hi' : i < 3 := hi
  obtain ⟨g1, g2, g3, g4⟩ := marineIP_get i
  rw [g1, g2, g3, g4]
  interval_cases i <;> norm_num

/-- The sediment at 2 Hz without permittivity: Cole-Cole with `ωτ = 2π`. -/
example (q : Four) : (coleColeLaw (marineIP.layerPar 2) 2 { q with etaH := 1 }).1 =
    0.8 * relaxation 2 0.5 0.25 + (1 - relaxation 2 0.5 0.25) := by
  obtain ⟨g1, g2, g3, g4⟩ := marineIP_get 2
  simp only [coleColeLaw, g1, g2, g3, g4]
  norm_num

/-- Without relaxation the law is the ordinary conductivity: `σ₀ = σ∞`. -/
example (f τ c σ : ℝ) : (σ : ℂ) * relaxation f τ c + (σ : ℂ) * (1 - relaxation f τ c) = σ := by ring

/-- With exact integration: `dipole` with `cole_cole` returns the response of the sea above a polarisable sediment. -/
example : ∃ arr, (dipoleHook (ruleBack fun _ g => ∫ lam in Set.Ioi (0 : ℝ), g lam) ⟨some Gallery.coleCole, none⟩ none
      marineIPArgs).val = .ok (NdArray.squeeze arr) ∧ arr.shape = [2, 3, 1] ∧
    ∃ θ', |θ' - thetaOf (bc [1000, 2000, 3000] 2 - bc [0] 0) (bc [0] 2 - bc [0] 0)| ≤ 1e-9 ∧
    ∀ F Fh : ℝ → ℝ → PlaneField,
      let B := ruleBack fun _ g => ∫ lam in Set.Ioi (0 : ℝ), g lam
      let M := fun g => marineIP.medium (sParam B.m.minFreq [1, 10] g) (usedVal B.m.minFreq [1, 10] g)
      (∀ lam > 0, ∀ φ, IsPlaneField (M 10) (lam * Real.cos φ) (lam * Real.sin φ) 950 1 (unitDipole 4) (F lam φ)) →
      (∀ lam > 0, ∀ φ, IsPlaneField ((M 10).homog 1) (lam * Real.cos φ) (lam * Real.sin φ) 950 0
        (unitDipole 4) (Fh lam φ)) →
      let ρ := rhoOf B.m.minOff (bc [1000, 2000, 3000] 2 - bc [0] 0) (bc [0] 2 - bc [0] 0)
      let θ := thetaOf (bc [1000, 2000, 3000] 2 - bc [0] 0) (bc [0] 2 - bc [0] 0)
      arr.get [1, 2, 0] = resp csqrt ([1, 10].map fun g => layerMed (M g) 1) 1 2 4 (ρ * Real.cos θ) (ρ * Real.sin θ)
          950 1000 +
        ∫ lam in Set.Ioi (0 : ℝ), ringIntegral (fun φ => (F lam φ).comp 2 1 1000 - (Fh lam φ).comp 2 0 1000)
          lam ρ θ' := by
  have m0 : 0 < (ruleBack fun _ g => ∫ lam in Set.Ioi (0 : ℝ), g lam).m.minRes := by
    norm_num [ruleBack, Mins.init]
  have m1 : 0 < (ruleBack fun _ g => ∫ lam in Set.Ioi (0 : ℝ), g lam).m.minFreq := by
    norm_num [ruleBack, Mins.init]
  have m2 : 0 < (ruleBack fun _ g => ∫ lam in Set.Ioi (0 : ℝ), g lam).m.minOff := by
    norm_num [ruleBack, Mins.init]
  have hv : marineIP.Valid (ruleBack fun _ g => ∫ lam in Set.Ioi (0 : ℝ), g lam).m.minRes := marineIP_valid
  obtain ⟨arr, h1, h2, h3⟩ := C53_dipole m0 m2 safe_exact exact_rule (ruleBack_uses _) hv marineIP_lists marineIP_obeys
    (fun g _ => marineIP_passive (sParam_spec m1 _ g).1 (sParam_spec m1 _ g).2 (by
      unfold usedVal; split_ifs <;> exact lt_max_of_lt_right m1))
    (a := 2) (b := 4) (by norm_num) (by norm_num) rfl (xs := [0]) (ys := [0]) (zs := 950)
    (xr := [1000, 2000, 3000]) (yr := [0]) (zr := 1000) rfl rfl (by simp) (by simp)
    (by simp [numDipoles, marineIPArgs, marineArgs]) (by simp [numDipoles, marineIPArgs, marineArgs])
  refine ⟨arr, h1, by rw [h2]; simp [numDipoles, marineIPArgs, marineArgs], ?_⟩
  obtain ⟨θ', e1, e2⟩ := h3 1 2 0 (by simp [marineIPArgs, marineArgs]) (by simp [numDipoles, marineIPArgs, marineArgs])
    (by simp [numDipoles, marineIPArgs, marineArgs])
  refine ⟨θ', e1, ?_⟩
  intro F Fh B M hF hH ρ θ
  have hin : ∀ z, 0 < z → z ≤ 1000 → (M 10).InUpper 1 z := by
    intro z z0 z1
    refine ⟨by norm_num, by norm_num [M, LawModel.medium, marineIP, marine], fun _ => ?_, fun _ => ?_⟩
    · simpa [M, LawModel.medium, marineIP, UserModel.medium, marine] using z0
    · simpa [M, LawModel.medium, marineIP, UserModel.medium, marine] using z1
  have := e2 1 1 (hin 950 (by norm_num) (by norm_num)) (hin 1000 (by norm_num) (by norm_num)) F Fh hF hH
  rw [this]
  simp only [show marineIPArgs.xdirect = some true from rfl, ne_eq, Option.some.injEq, Bool.true_eq_false,
    not_false_eq_true, and_self, if_true]
  rfl

/-- Without `tau`: `KeyError`, also if `ab` is not a component. -/
example (B : Back) (hB : B.m.minRes = 1e-20) : (dipoleHook B ⟨some Gallery.coleCole, none⟩ none
    { marineArgs with res := .dict marine.res [("c", none)], ab := .other }).val = .error .keyError :=
  C53_key_error (V := ⟨marine, [("c", none)], none, none⟩)
    ⟨hB ▸ marine_valid, by
      intro p hp l hl
      simp only [List.mem_cons, List.not_mem_nil, or_false] at hp
      subst hp; cases hl⟩
    (.topDown false false (by simp [marineArgs, marine, allDepths]) rfl rfl rfl rfl rfl rfl) rfl none

end Verif.Props
