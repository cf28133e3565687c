import Verif.Props.C57_Symmetries
import Verif.Lemmas.Laplace

/-!
# C57: source and receiver at the same horizontal position

Where reciprocity fails: for coincident horizontal positions the code takes the minimum offset and the azimuth zero, whether
one looks from the source to the receiver or back.
-/

namespace Verif.Props
open Verif.Spec Verif.Py Verif.Py.W Verif.Utils Verif.Model Verif.Kernel Verif.Transform Verif.Fullspace
  Verif.Lemmas MeasureTheory Set

/-- An isotropic medium with real positive parameters (Laplace domain). -/
theorem ginHV_real {e z off zs zr : ℝ} (he : 0 < e) (hz : 0 < z) (ho : 0 < off) (c : ℕ) (hc : c ∈ [13, 31]) (y : ℝ) :
    ∃ K : ℝ, 0 < K ∧ ∀ x : ℝ, ginHV csqrt ⟨(e : ℂ), (e : ℂ), (z : ℂ), (z : ℂ)⟩ off x y zs zr c =
      ((K * (zr - zs) * x : ℝ) : ℂ) := by
  have h1 : (e : ℂ) / (e : ℂ) = ((1 : ℝ) : ℂ) := by
    rw [Complex.ofReal_one]; exact div_self (by exact_mod_cast he.ne')
  set R := Real.sqrt (off * off + (zs - zr) * (zs - zr) * 1) with hR
  have R0 : 0 < R := Real.sqrt_pos.2 (by nlinarith [mul_pos ho ho, mul_self_nonneg (zs - zr)])
  set l := Real.sqrt (z * e) with hl
  have l0 : 0 < l := Real.sqrt_pos.2 (mul_pos hz he)
  have d : Fullspace.dist csqrt off zs zr (e : ℂ) (e : ℂ) = (R : ℂ) := by
    unfold Fullspace.dist
    rw [h1, ← csqrt_ofReal (by nlinarith [mul_pos ho ho, mul_self_nonneg (zs - zr)])]
    push_cast; rfl
  have g : lGam csqrt (z : ℂ) (e : ℂ) = (l : ℂ) := by
    unfold lGam
    rw [← Complex.ofReal_mul, csqrt_ofReal (mul_pos hz he).le]
  have u : uGam csqrt (l : ℂ) (R : ℂ) (e : ℂ) (e : ℂ) = ((Real.exp (-l * R) / (4 * Real.pi * R) : ℝ) : ℂ) := by
    unfold uGam
    rw [h1, csqrt_ofReal zero_le_one, Real.sqrt_one]
    push_cast
    ring_nf
  refine ⟨(1 / (R * R)) * (3 / (R * R) + 3 * l / R + l * l) * (Real.exp (-l * R) / (4 * Real.pi * R)) / e, ?_, fun x => ?_⟩
  · have := Real.pi_pos
    have := Real.exp_pos (-l * R)
    positivity
  · unfold ginHV
    simp only [d, g, u, h1, if_pos hc]
    push_cast
    ring

/-- One whole space of 1 Ωm, a source at the origin, a receiver 100 m above or below it. -/
noncomputable def wholeSpace : UserModel := ⟨[], [1], none, none, none, none, none⟩

theorem wholeSpace_valid : wholeSpace.Valid 1e-20 where
  order := by simp [wholeSpace]
  len := by simp [wholeSpace]
  lens := by intro l h; simp [wholeSpace] at h
  rhoH := by
    intro i hi
    simp only [wholeSpace, List.length_nil] at hi
    interval_cases i; norm_num [UserModel.rhoH, wholeSpace]
  rhoV := by
    intro i hi
    simp only [wholeSpace, List.length_nil] at hi
    interval_cases i; norm_num [UserModel.rhoV, UserModel.rhoH, UserModel.val, wholeSpace]
  aniso := fun i _ => by norm_num [UserModel.val, wholeSpace]
  epsH := fun i _ => by norm_num [UserModel.epsH, UserModel.val, wholeSpace]
  epsV := fun i _ => by norm_num [UserModel.epsV, UserModel.epsH, UserModel.val, wholeSpace]
  muH := fun i _ => by norm_num [UserModel.muH, UserModel.val, wholeSpace]
  muV := fun i _ => by norm_num [UserModel.muV, UserModel.muH, UserModel.val, wholeSpace]

theorem wholeSpace_uniform : wholeSpace.Uniform := by
  intro i hi j hj
  simp only [wholeSpace, List.length_nil] at hi hj
  interval_cases i; interval_cases j
  exact ⟨rfl, rfl, rfl, rfl, rfl, rfl⟩

@[inherit_doc wholeSpace]
noncomputable def belowArgs : DipoleArgs where
  src := [[0], [0], [0]]
  rcv := [[0], [0], [100]]
  depth := some []
  res := .array [1]
  freq := [-1]
  ab := .int 31
  aniso := none
  epermH := none
  epermV := none
  mpermH := none
  mpermV := none
  xdirect := some true
  loop := none
  squeeze := true
  verb := 2

/-- Source and receiver exchanged. -/
noncomputable def aboveArgs : DipoleArgs :=
  { belowArgs with src := belowArgs.rcv, rcv := belowArgs.src, ab := .int 13 }

theorem below_describes : Describes belowArgs wholeSpace :=
  ⟨_, .topDown false false (by simp [belowArgs, wholeSpace, allDepths]) rfl rfl rfl rfl rfl rfl⟩

theorem above_describes : Describes aboveArgs wholeSpace :=
  ⟨_, .topDown false false (by simp [aboveArgs, belowArgs, wholeSpace, allDepths]) rfl rfl rfl rfl rfl rfl⟩

/-- Entry of a call in the whole space, straight above or below the source. -/
theorem whole_entry (T : ℝ → (ℝ → ℂ) → ℂ) {a b c : ℕ} (hc : checkAb (.int (10 * a + b)) = .ok (c, false, false))
    (h36 : c ≠ 36) (zs zr : ℝ) : ∃ l : ℤ,
    entryOf (ruleBack T) (besselRule T) wholeSpace [-1] (some true) c false false zs zr (rhoOf (ruleBack T).m.minOff 0 0)
      (thetaOf 0 0) 0 = resp csqrt ([-1].map fun g => layerMed (wholeSpace.medium (sParam 1e-20 [-1] g)) l) 0 a b 1e-3 0 zs zr ∧
    0 ≤ l ∧ l < 1 := by
  have hm : 0 < (ruleBack T).m.minRes := by norm_num [ruleBack, Mins.init]
  have hU : wholeSpace.Valid (ruleBack T).m.minRes := wholeSpace_valid
  have hfull : (userOut (ruleBack T).m wholeSpace).isfullspace = true := (user_full hm hU).2 wholeSpace_uniform
  have hr : rhoOf (ruleBack T).m.minOff 0 0 = 1e-3 := by norm_num [rhoOf, ruleBack, Mins.init]
  have ht : thetaOf 0 0 = 0 := by
    have : (⟨0, 0⟩ : ℂ) = 0 := rfl
    rw [thetaOf, this, Complex.arg_zero]
  obtain ⟨l0, l1, -⟩ := (user_layer hU 1 zr _).2 rfl
  refine ⟨_, ?_, l0, by simpa [UserModel.medium, wholeSpace] using l1⟩
  have hsk : Skipped c (some true) (userOut (ruleBack T).m wholeSpace).isfullspace := Or.inr ⟨hfull, by simp⟩
  unfold entryOf
  dsimp only
  rw [if_pos ⟨h36, rfl, Or.inl hfull⟩, if_pos hsk, add_zero, hr, ht,
    direct_resp (by simp) hc (by norm_num) _ _ _ h36, Real.cos_zero, Real.sin_zero, mul_one, mul_zero]
  rfl

theorem whole_med (l : ℤ) (h0 : 0 ≤ l) (h1 : l < 1) : ∃ e z : ℝ, 0 < e ∧ 0 < z ∧
    layerMed (wholeSpace.medium (sParam 1e-20 [-1] (-1))) l = ⟨(e : ℂ), (e : ℂ), (z : ℂ), (z : ℂ)⟩ := by
  obtain rfl : l = 0 := by omega
  have hs : sParam 1e-20 [-1] (-1) = ((1 : ℝ) : ℂ) := by
    unfold sParam
    rw [if_neg (by norm_num)]
    norm_num
  have hpi := Real.pi_pos
  have h2 : 0 < epsVac := by unfold epsVac muVac; positivity
  refine ⟨1 + epsVac, muVac, by linarith, by unfold muVac; positivity, ?_⟩
  rw [hs]
  simp [layerMed, UserModel.medium, UserModel.layer, wholeSpace, UserModel.rhoH, UserModel.rhoV, UserModel.epsH,
    UserModel.epsV, UserModel.muH, UserModel.muV, UserModel.val]

/-- **C57, coincident positions (violated).**  Without the exclusion of coincident horizontal positions reciprocity is
false: a receiver straight below the source, the vertical electric component of an `x` dipole, and the exchanged call.  All
other premises of `C57_reciprocity` hold, whatever the integration rule. -/
theorem C57_coincident (T : ℝ → (ℝ → ℂ) → ℂ) : ∃ arr arr',
    (dipole (ruleBack T) belowArgs).val = .ok (NdArray.squeeze arr) ∧
    (dipole (ruleBack T) aboveArgs).val = .ok (NdArray.squeeze arr') ∧ arr.shape = [1, 1, 1] ∧ arr'.shape = [1, 1, 1] ∧
    arr.get [0, 0, 0] = -arr'.get [0, 0, 0] ∧ arr.get [0, 0, 0] ≠ recipSign 3 * recipSign 1 * arr'.get [0, 0, 0] := by
  have hm : 0 < (ruleBack T).m.minRes := by norm_num [ruleBack, Mins.init]
  have hU : wholeSpace.Valid (ruleBack T).m.minRes := wholeSpace_valid
  obtain ⟨arr, e1, e2, e3⟩ := entries hm (ruleBack_uses T) hU below_describes (a := 3) (b := 1) rfl (c := 31) (ms := false)
    (mr := false) rfl (xs := [0]) (ys := [0]) (zs := 0) (xr := [0]) (yr := [0]) (zr := 100) rfl rfl (by simp) (by simp)
    (by simp [numDipoles, belowArgs]) (by simp [numDipoles, belowArgs])
  obtain ⟨arr', g1, g2, g3⟩ := entries hm (ruleBack_uses T) hU above_describes (a := 1) (b := 3) rfl (c := 13) (ms := false)
    (mr := false) rfl (xs := [0]) (ys := [0]) (zs := 100) (xr := [0]) (yr := [0]) (zr := 0) rfl rfl (by simp) (by simp)
    (by simp [numDipoles, belowArgs, aboveArgs]) (by simp [numDipoles, belowArgs, aboveArgs])
  have E := e3 0 0 0 (by simp [belowArgs]) (by simp [belowArgs, numDipoles]) (by simp [belowArgs, numDipoles])
  have G := g3 0 0 0 (by simp [aboveArgs, belowArgs]) (by simp [aboveArgs, belowArgs, numDipoles])
    (by simp [aboveArgs, belowArgs, numDipoles])
  have hb : bc [0] 0 - bc [0] 0 = 0 := by simp
  rw [hb] at E G
  obtain ⟨l, q1, l0, l1⟩ := whole_entry T (a := 3) (b := 1) (c := 31) rfl (by norm_num) 0 100
  obtain ⟨k, p1, k0, k1⟩ := whole_entry T (a := 1) (b := 3) (c := 13) rfl (by norm_num) 100 0
  obtain rfl : k = l := by omega
  replace E := E.trans q1
  replace G := G.trans p1
  obtain ⟨e, z, he, hz, hmed⟩ := whole_med k k0 k1
  have hoff : Real.sqrt ((1e-3 : ℝ) ^ 2 + 0 ^ 2) = 1e-3 := by
    rw [zero_pow two_ne_zero, add_zero, Real.sqrt_sq (by norm_num)]
  obtain ⟨K, K0, hK⟩ := ginHV_real he hz (zs := 0) (zr := 100) (show (0 : ℝ) < 1e-3 by norm_num) 31 (by simp) 0
  have v1 : arr.get [0, 0, 0] = ((K * (100 - 0) * 1e-3 : ℝ) : ℂ) := by
    rw [E, resp_eq (by simp) (by norm_num) (by norm_num), ← hK]
    simp only [List.map_cons, List.map_nil, List.getElem_cons_zero, hmed, hoff]
    simp [core]
  have v2 : arr.get [0, 0, 0] = -arr'.get [0, 0, 0] := by
    rw [v1, G, C36_reciprocity _ _ (by simp) (by norm_num) (by norm_num), resp_eq (by simp) (by norm_num) (by norm_num)]
    have := hK (-1e-3)
    simp only [List.map_cons, List.map_nil, List.getElem_cons_zero, hmed, neg_zero, neg_sq, hoff]
    have e1 : recipSign 1 * recipSign 3 = 1 := by simp [recipSign]
    rw [e1, one_mul]
    simp only [core]
    simp
    simp at this
    rw [this]
    push_cast
    ring
  refine ⟨arr, arr', e1, g1, by simpa [belowArgs, numDipoles] using e2,
    by simpa [aboveArgs, belowArgs, numDipoles] using g2, v2, ?_⟩
  intro h
  have hs : recipSign 3 * recipSign 1 = 1 := by simp [recipSign]
  rw [hs, one_mul] at h
  have h0 : arr.get [0, 0, 0] = 0 := by
    have : arr.get [0, 0, 0] = -arr.get [0, 0, 0] := by
      calc arr.get [0, 0, 0] = -arr'.get [0, 0, 0] := v2
        _ = -arr.get [0, 0, 0] := by rw [h]
    linear_combination (1 / 2 : ℂ) * this
  rw [v1] at h0
  have : K * (100 - 0) * 1e-3 = 0 := by exact_mod_cast h0
  nlinarith

end Verif.Props
