import Verif.Props.C58_Rotation
import Verif.Props.C45_Decay

/-!
# C58: turning sources and receivers by any angle, exact integration

The nine integrals exist (C45), so the exact integral may be taken into the sum over the components.
-/

namespace Verif.Props
open Verif.Spec Verif.Py Verif.Py.W Verif.Utils Verif.Model Verif.Kernel Verif.Transform Verif.Fullspace
  Verif.Lemmas Verif.Lemmas.Full MeasureTheory Set

/-- At different depths, the exact integral may be taken into the sum over the components. -/
theorem nine_sums {B : Back} (hm : 0 < B.m.minRes) (hfr : 0 < B.m.minFreq) (ho : Safe B.o) {U : UserModel}
    (hU : U.Valid B.m.minRes) (freq : List ℝ) (xd : Option Bool) {ta tb : ℕ} (hta : ta = 0 ∨ ta = 3)
    (htb : tb = 0 ∨ tb = 3) {zs zr : ℝ} (hz : zs ≠ zr) (ρ θ : ℝ) (f : ℕ) :
    Sums (besselRule fun _ g => ∫ lam in Ioi (0 : ℝ), g lam) ρ (nine B U freq xd ta tb zs zr ρ θ f) := by
  refine exact_sums ρ _ fun a ha b hb => ?_
  obtain ⟨s0, sre⟩ := sParam_spec hfr freq (freq.getD f 0)
  have hM := user_ok hm hU s0 sre
  have hsc := upper_closed ((user_layer (m := B.m) hU (sParam B.m.minFreq freq (freq.getD f 0)) zs _).2 rfl)
  have hrc := upper_closed ((user_layer (m := B.m) hU (sParam B.m.minFreq freq (freq.getD f 0)) zr _).2 rfl)
  exact (C45_decay ho hM (fun i i0 i1 => (user_physical hm hU i0 i1 s0 sre (sParam_im hfr freq _).1).1) hsc hrc hz
    (xd.getD true) ρ _ (off_range hta ha) (off_range htb hb) (decode_ok (off_range hta ha) (off_range htb hb))).1

/-- **C58, rotation, exact integration.**  The statement of `C58_rotation` for the exact Hankel integral; source and receiver
at different depths. -/
theorem C58_rotation_exact {B : Back} (hm : 0 < B.m.minRes) (hfr : 0 < B.m.minFreq) (hof : 0 < B.m.minOff) (ho : Safe B.o)
    (hB : Uses B (besselRule fun _ g => ∫ lam in Ioi (0 : ℝ), g lam))
    {U : UserModel} (hU : U.Valid B.m.minRes) {A A' : ℕ → ℕ → DipoleArgs} (hA : ∀ a b, Describes (A a b) U)
    (hA' : ∀ a b, Describes (A' a b) U) {ta tb : ℕ} (hta : ta = 0 ∨ ta = 3) (htb : tb = 0 ∨ tb = 3)
    (hab : ∀ a ∈ Finset.Icc 1 3, ∀ b ∈ Finset.Icc 1 3,
      toInt (A a b).ab = .ok (10 * ((ta + a : ℕ) : ℤ) + ((tb + b : ℕ) : ℤ)) ∧
      toInt (A' a b).ab = .ok (10 * ((ta + a : ℕ) : ℤ) + ((tb + b : ℕ) : ℤ)))
    {xs ys xr yr xs' ys' xr' yr' : List ℝ} {zs zr : ℝ} (hz : zs ≠ zr)
    (hsrc : ∀ a b, (A a b).src = [xs, ys, [zs]]) (hrcv : ∀ a b, (A a b).rcv = [xr, yr, [zr]])
    (hsrc' : ∀ a b, (A' a b).src = [xs', ys', [zs]]) (hrcv' : ∀ a b, (A' a b).rcv = [xr', yr', [zr]])
    {freq : List ℝ} (hfq : ∀ a b, (A a b).freq = freq ∧ (A' a b).freq = freq)
    {xd : Option Bool} (hxd : ∀ a b, (A a b).xdirect = xd ∧ (A' a b).xdirect = xd)
    (hls : xs.length = ys.length ∨ xs.length = 1 ∨ ys.length = 1) (hlr : xr.length = yr.length ∨ xr.length = 1 ∨ yr.length = 1)
    (hls' : xs'.length = ys'.length ∨ xs'.length = 1 ∨ ys'.length = 1)
    (hlr' : xr'.length = yr'.length ∨ xr'.length = 1 ∨ yr'.length = 1)
    {ns nr : ℕ} (hns : 0 < ns ∧ numDipoles [xs, ys, [zs]] = ns ∧ numDipoles [xs', ys', [zs]] = ns)
    (hnr : 0 < nr ∧ numDipoles [xr, yr, [zr]] = nr ∧ numDipoles [xr', yr', [zr]] = nr)
    {α : ℝ} (hts : TurnedBy α xs ys xs' ys' ns) (htr : TurnedBy α xr yr xr' yr' nr) :
    ∃ arr arr' : ℕ → ℕ → NdArray,
      (∀ a ∈ Finset.Icc 1 3, ∀ b ∈ Finset.Icc 1 3,
        (dipole B (A a b)).val = .ok (if (A a b).squeeze then (arr a b).squeeze else arr a b) ∧
        (dipole B (A' a b)).val = .ok (if (A' a b).squeeze then (arr' a b).squeeze else arr' a b) ∧
        (arr a b).shape = [freq.length, nr, ns] ∧ (arr' a b).shape = [freq.length, nr, ns]) ∧
      ∀ (u v : ℕ → ℂ) (f r s : ℕ), f < freq.length → r < nr → s < ns → (bc xr r ≠ bc xs s ∨ bc yr r ≠ bc ys s) →
        ClearAngle (thetaOf (bc xr r - bc xs s) (bc yr r - bc ys s)) →
        ClearAngle (thetaOf (bc xr' r - bc xs' s) (bc yr' r - bc ys' s)) →
        ∑ a ∈ Finset.Icc 1 3, ∑ b ∈ Finset.Icc 1 3, turn α u a * turn α v b * (arr' a b).get [f, r, s] =
          ∑ a ∈ Finset.Icc 1 3, ∑ b ∈ Finset.Icc 1 3, u a * v b * (arr a b).get [f, r, s] := by
  obtain ⟨arr, arr', h1, h2⟩ := rotation_all hm hof ho hB hU hA hA' hta htb hab hsrc hrcv hsrc' hrcv' hfq hxd hls hlr hls' hlr'
    hns hnr hts htr
  exact ⟨arr, arr', h1, fun u v f r s hf hr hs hne hcl hcl' => h2 u v f r s hf hr hs hne hcl hcl'
    (nine_sums hm hfr ho hU freq xd hta htb hz _ _ f) (nine_sums hm hfr ho hU freq xd hta htb hz _ _ f)⟩

/-- Marine model: the magnetic field of an electric source, turned by one radian, exact integration. -/
example : ∃ arr arr' : ℕ → ℕ → NdArray,
    (∀ a ∈ Finset.Icc 1 3, ∀ b ∈ Finset.Icc 1 3,
      (dipole (ruleBack fun _ g => ∫ lam in Ioi (0 : ℝ), g lam) (marineNine a b)).val = .ok (NdArray.squeeze (arr a b)) ∧
      (dipole (ruleBack fun _ g => ∫ lam in Ioi (0 : ℝ), g lam) (marineRad a b)).val = .ok (NdArray.squeeze (arr' a b)) ∧
      (arr a b).shape = [2, 3, 1]) ∧
    ∀ u v : ℕ → ℂ, ∑ a ∈ Finset.Icc 1 3, ∑ b ∈ Finset.Icc 1 3, turn 1 u a * turn 1 v b * (arr' a b).get [1, 2, 0] =
      ∑ a ∈ Finset.Icc 1 3, ∑ b ∈ Finset.Icc 1 3, u a * v b * (arr a b).get [1, 2, 0] := by
  obtain ⟨arr, arr', h1, h2⟩ := C58_rotation_exact (B := ruleBack fun _ g => ∫ lam in Ioi (0 : ℝ), g lam)
    (by norm_num [ruleBack, Mins.init]) (by norm_num [ruleBack, Mins.init]) (by norm_num [ruleBack, Mins.init]) safe_exact
    (ruleBack_uses _) marine_valid
    nine_describes rad_describes (ta := 3) (tb := 0) (Or.inr rfl) (Or.inl rfl) (fun a _ b _ => ⟨rfl, rfl⟩)
    (xs := [0]) (ys := [0]) (xr := [1000, 2000, 3000]) (yr := [0]) (zs := 950) (zr := 1000)
    (xs' := [0]) (ys' := [0]) (by norm_num) (fun _ _ => rfl) (fun _ _ => rfl) (fun _ _ => rfl) (fun _ _ => rfl)
    (freq := [1, 10]) (fun _ _ => ⟨rfl, rfl⟩) (xd := some true) (fun _ _ => ⟨rfl, rfl⟩)
    (by simp) (by simp) (by simp) (by simp) (ns := 1) (nr := 3) (by simp [numDipoles]) (by simp [numDipoles]) (α := 1)
    (by intro s _; simp [bc])
    (by intro s hs; interval_cases s <;> simp [bc])
  refine ⟨arr, arr', fun a ha b hb => ⟨(h1 a ha b hb).1, (h1 a ha b hb).2.1, (h1 a ha b hb).2.2.1⟩, fun u v => ?_⟩
  refine h2 u v 1 2 0 (by simp) (by simp) (by simp) (Or.inl (by simp [bc])) ?_ ?_
  · have : thetaOf (bc [1000, 2000, 3000] 2 - bc [0] 0) (bc [0] 2 - bc [0] 0) = 0 := by
      have e1 : bc [1000, 2000, 3000] 2 - bc [0] 0 = 3000 := by simp [bc]
      have e2 : bc [0] 2 - bc [0] 0 = 0 := by simp [bc]
      rw [e1, e2, thetaOf, Complex.arg_eq_zero_iff]
      exact ⟨by norm_num, rfl⟩
    rw [this]; exact clear_zero
  · have : thetaOf (bc [Real.cos 1 * 1000, Real.cos 1 * 2000, Real.cos 1 * 3000] 2 - bc [0] 0)
        (bc [Real.sin 1 * 1000, Real.sin 1 * 2000, Real.sin 1 * 3000] 2 - bc [0] 0) = 1 := by
      refine Eq.trans ?_ rad_theta
      congr 1 <;> simp [bc, mul_comm]
    rw [this]; exact clear_one

end Verif.Props
